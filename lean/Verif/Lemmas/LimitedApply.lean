import Verif.Lemmas.LimitedRule

/-! # Applying a limited rule -/

namespace Model.Prover
open Spec Model Model.Expr
variable {σ S : Type}

/-! ## The rule and the tape near the head -/

/-- the stripped half tape with the block in front of it -/
def padOf {α : Type} (f : α → Info σ) (l : List α) : List (Option (Info σ)) := (l.dropLast.map f).map some ++ [none]

theorem padOf_cons {α : Type} (f : α → Info σ) (a : α) {l : List α} (h : l ≠ []) : padOf f (a :: l) = some (f a) :: padOf f l := by
  unfold padOf
  rw [dropLast_map _ h]; rfl

theorem match_take {z : σ} {g d l} (h : RHalf z g d l) : ∀ (n : Nat) {u : List (Blk σ Nat)}, WFHalf z u →
    (padOf (info natIsOne) u).take n = (padOf (info valIsOne) g).take n →
    ∃ l', MHalf z (g.take n) (d.take n) (u.take n) l' ∧ (l'.map (·.1)).Sublist (l.map (·.1)) := by
  induction h with
  | last =>
    intro n u hw he
    cases n with
    | zero => exact ⟨[], .nil, by simp⟩
    | succ n =>
      match u, hw, he with
      | ⟨a, none⟩ :: rest, hw, he => obtain ⟨rfl, rfl⟩ := wfHalf_inf hw; exact ⟨[], by simpa using MHalf.last, by simp⟩
      | ⟨a, some n⟩ :: rest, hw, he =>
        rw [padOf_cons _ _ (wfHalf_ne (wfHalf_cons.1 hw).2.2)] at he; simp [padOf] at he
  | @one a g d l h ih =>
    intro n u hw he
    cases n with
    | zero => exact ⟨[], .nil, by simp⟩
    | succ n =>
      rw [padOf_cons _ _ (rhalf_ne h).1] at he
      match u, hw, he with
      | ⟨b, none⟩ :: rest, hw, he => obtain ⟨rfl, rfl⟩ := wfHalf_inf hw; simp [padOf] at he
      | ⟨b, some m⟩ :: rest, hw, he =>
        have hr := (wfHalf_cons.1 hw).2.2
        rw [padOf_cons _ _ (wfHalf_ne hr)] at he
        obtain ⟨h1, h2⟩ := List.cons.inj he
        obtain ⟨l', h3, h4⟩ := ih n hr h2
        rcases info_nat (a := b) (n := m) with ⟨rfl, e⟩ | ⟨hne, e⟩ <;> rw [e] at h1 <;> simp at h1
        subst h1
        exact ⟨l', .one b h3, h4⟩
  | @many a x c δ g d l h1 h2 h ih =>
    intro n u hw he
    cases n with
    | zero => exact ⟨[], .nil, by simp⟩
    | succ n =>
      rw [padOf_cons _ _ (rhalf_ne h).1, info_var] at he
      match u, hw, he with
      | ⟨b, none⟩ :: rest, hw, he => obtain ⟨rfl, rfl⟩ := wfHalf_inf hw; simp [padOf] at he
      | ⟨b, some m⟩ :: rest, hw, he =>
        have hr := (wfHalf_cons.1 hw).2.2
        rw [padOf_cons _ _ (wfHalf_ne hr)] at he
        obtain ⟨h3, h4⟩ := List.cons.inj he
        obtain ⟨l', h5, h6⟩ := ih n hr h4
        rcases info_nat (a := b) (n := m) with ⟨rfl, e⟩ | ⟨hne, e⟩ <;> rw [e] at h3 <;> simp at h3
        subst h3
        exact ⟨(x, c, δ, m) :: l', .many b h1 h2 h5, by simpa using h6⟩

theorem match_takeL {z : σ} {g d l} (h : RHalf z g d l) (n : Nat) {u : List (Blk σ Nat)} (hw : WFHalf z u)
    (he : takeL n (padOf (info natIsOne) u) = takeL n (padOf (info valIsOne) g)) :
    ∃ l', MHalf z (takeL n g) (takeL n d) (takeL n u) l' ∧ (l'.map (·.1)).Sublist (l.map (·.1)) := by
  by_cases hn : n = 0
  · subst hn
    simp only [takeL, if_true] at he ⊢
    have := match_take h (g.length + d.length + u.length) hw (by rw [he])
    rwa [List.take_of_length_le (by omega), List.take_of_length_le (by omega), List.take_of_length_le (by omega)] at this
  · simp only [takeL, if_neg hn] at he ⊢
    exact match_take h n hw he

theorem mhalf_vars {z : σ} {g d u l} (h : MHalf z g d u l) : hvars g = l.map (·.1) := by
  induction h with
  | nil => rfl
  | last => rfl
  | one a h ih => simpa using ih
  | many a h1 h2 h ih => simp only [hvars_some, List.map_cons, ih]; rfl

theorem halfIs_agree {z : σ} {g d u l} (h : MHalf z g d u l) {y y' : Nat → Int} : ∀ {a : List (Blk σ Nat)}, HalfIs y g a →
    HalfIs y' g a → ∀ x ∈ l.map (·.1), y x = y' x := by
  induction h with
  | nil => intro a h1 h2 x hx; simp at hx
  | last => intro a h1 h2 x hx; simp at hx
  | one b h ih =>
    intro a h1 h2
    cases h1 with
    | cons h3 h4 =>
      cases h2 with
      | cons h5 h6 => exact ih h4 h6
  | @many b x c δ n g d u l h1 h2 h ih =>
    intro a h1 h2
    cases h1 with
    | @cons _ b' _ _ h3 h4 =>
      cases h2 with
      | cons h5 h6 =>
        intro x' hx
        rcases List.mem_cons.1 hx with rfl | hx
        · obtain ⟨m, e1, e2⟩ := numIs_some h3.2
          obtain ⟨m', e3, e4⟩ := numIs_some h5.2
          rw [e1] at e3; cases e3
          rw [varPlus_value] at e2 e4
          show y _ = y' _
          omega
        · exact ih h4 h6 x' hx

theorem halfPlus_congr {z : σ} {g d u l} (h : MHalf z g d u l) {y y' : Nat → Int} (hy : ∀ x ∈ l.map (·.1), y x = y' x) :
    ∀ {a : List (Blk σ Nat)}, HalfPlus y g d a → HalfPlus y' g d a := by
  induction h with
  | nil =>
    intro a h
    match a, h with
    | [], _ => trivial
  | last =>
    intro a h
    match a, h with
    | [⟨c, none⟩], h => exact ⟨h.1, trivial, trivial⟩
  | one b h ih =>
    intro a h1
    match a, h1 with
    | ⟨c, some m⟩ :: a, h1 =>
      refine ⟨h1.1, ih hy h1.2.1, ?_⟩
      have h3 := h1.2.2
      simp only [value_num] at h3 ⊢
      exact h3
  | @many b x c δ n g d u l h1 h2 h ih =>
    intro a h1
    match a, h1 with
    | ⟨e, some m⟩ :: a, h1 =>
      refine ⟨h1.1, ih (fun x hx => hy x (by simp [hx])) h1.2.1, ?_⟩
      have h3 := h1.2.2
      simp only [varPlus_value, value_num] at h3 ⊢
      rw [← hy x (by simp)]; exact h3

/-! ## The shape of the tape -/

def Shape (a b : List (Blk σ Nat)) : Prop := List.Forall₂ (fun x y => x.sym = y.sym ∧ (x.num = none ↔ y.num = none)) a b

theorem shape_refl (a : List (Blk σ Nat)) : Shape a a := List.forall₂_same.2 (fun _ _ => ⟨rfl, Iff.rfl⟩)

theorem shape_trans {a b : List (Blk σ Nat)} (h : Shape a b) : ∀ {c}, Shape b c → Shape a c := by
  induction h with
  | nil => exact fun h => h
  | cons h1 h2 ih =>
    intro c h
    cases h with
    | cons h3 h4 => exact .cons ⟨h1.1.trans h3.1, h1.2.trans h3.2⟩ (ih h4)

theorem shape_syms {a b : List (Blk σ Nat)} (h : Shape a b) : a.map (·.sym) = b.map (·.sym) := by
  induction h with
  | nil => rfl
  | cons h1 h2 ih => simp [h1.1, ih]

theorem shape_plus {y : Nat → Int} : ∀ {g d : List (Blk σ V)} {a b : List (Blk σ Nat)}, HalfIs y g a → HalfPlus y g d b → Shape a b
  | [], [], _, [], h1, _ => by cases h1; exact .nil
  | x :: g, w :: d, _, c :: b, h1, h2 => by
    cases h1 with
    | cons h3 h4 =>
      refine .cons ⟨h3.1.symm.trans h2.1, ?_⟩ (shape_plus h4 h2.2.1)
      have h5 := h2.2.2
      have h6 := h3.2
      revert h5 h6
      rename_i e _
      cases x.num <;> cases w.num <;> cases c.num <;> cases e.num <;> simp [NumIs]

theorem wf_same {z : σ} : ∀ {a b : List (Blk σ Nat)}, Shape a b → (∀ x ∈ b, x.num ≠ some 0) → WFHalf z a → WFHalf z b
  | [], _, h, _, hw => hw.elim
  | ⟨s, none⟩ :: a, _, h, hp, hw => by
    obtain ⟨rfl, rfl⟩ := wfHalf_inf hw
    cases h with
    | @cons _ c _ _ h1 h2 =>
      cases h2
      obtain ⟨s', n⟩ := c
      have : n = none := h1.2.1 rfl
      subst this
      exact h1.1.symm
  | ⟨s, some n⟩ :: a, _, h, hp, hw => by
    obtain ⟨h0, ⟨e, r, rfl, hne⟩, hw'⟩ := wfHalf_cons.1 hw
    cases h with
    | @cons _ c _ b h1 h2 =>
      obtain ⟨s', n'⟩ := c
      cases n' with
      | none => exact absurd (h1.2.2 rfl) (by simp)
      | some m =>
        have hb := wf_same h2 (fun x hx => hp x (by simp [hx])) hw'
        refine wfHalf_cons.2 ⟨?_, ?_, hb⟩
        · have := hp ⟨s', some m⟩ (by simp)
          simp at this
          omega
        · cases h2 with
          | cons h3 h4 => exact ⟨_, _, rfl, by have e1 : s = s' := h1.1; rw [← h3.1, ← e1]; exact hne⟩

/-! ## Applying the rule again and again -/

/-- `a` is where the machine started at `cfg` on the tape with these surroundings is after `a.steps` steps -/
structure Near (T : Table) (Den : DC σ S → Config → Prop) (ctx : Dir → Nat → σ) (t0 : ChainTape σ Nat) (st : S) (cfg : Config)
    (a : SimSt σ S Nat) : Prop where
  dir : a.tape.dir = t0.dir
  den : Den (zoneDC ctx a.tape st) (run T a.steps cfg)
  seen : SeenExact T cfg a.steps a.seen
  shape : ∀ d, Shape (t0.half d) (a.tape.half d)
  pos : ∀ d, ∀ b ∈ a.tape.half d, b.num ≠ some 0
  loops : a.loops ≤ a.steps

theorem lastSeen_unique {T : Table} {cfg : Config} {n q s t : Nat} (h : LastSeen T cfg n q s) (h' : LastSeen T cfg n q t) : s = t := by
  rcases Nat.lt_trichotomy s t with h1 | h1 | h1
  · exact absurd h'.2.1 (h.2.2 t h1 h'.1)
  · exact h1
  · exact absurd h.2.1 (h'.2.2 s h1 h.1)

theorem seenIs_exact {T : Table} {cfg : Config} {n : Nat} {y : Nat → Int} {seen : List (Nat × V)} (h : SeenIs T cfg n y seen)
    (hk : Py.NodupKeys seen) : SeenExact T cfg n (seen.map (fun e => (e.1, (Val.value y e.2).toNat))) := by
  refine ⟨?_, fun q t => ?_⟩
  · unfold Py.NodupKeys at hk ⊢; rw [List.map_map]; exact hk
  · rw [dget_map (fun v => (Val.value y v).toNat)]
    cases hd : Py.dget seen q with
    | none =>
      simp only [Option.map_none]
      exact ⟨fun h => by simp at h, fun ht => absurd ht.2.1 ((h q).2 hd t ht.1)⟩
    | some v =>
      obtain ⟨k, e1, e2⟩ := (h q).1 v hd
      simp only [Option.map_some, ← e1, Int.toNat_natCast, Option.some.injEq]
      exact ⟨fun e => e ▸ e2, fun e => lastSeen_unique e2 e⟩

theorem near_next {T : Table} {Den : DC σ S → Config → Prop} {z : σ} {key : Strip σ S} {r : LimRule σ} {ctx : Dir → Nat → σ}
    {t0 : ChainTape σ Nat} {cfg : Config} (h : LRuleOK T Den z key r) {l1 l2}
    (m1 : MHalf z r.rule.init.left r.rule.diff.left t0.left l1) (m2 : MHalf z r.rule.init.right r.rule.diff.right t0.right l2)
    {a : SimSt σ S Nat} (hI : Near T Den ctx t0 key.st cfg a) (hop : a.op = .running) {y0 : Nat → Int} (hy0 : ∀ x, 0 ≤ y0 x)
    (ht0 : TapeIs y0 r.rule.init a.tape) :
    ∃ a', a'.loops = a.loops + 1 ∧ ∀ y : Nat → Int, (∀ x, 0 ≤ y x) → TapeIs y r.rule.init a.tape →
      Reaches y r.rule.steps r.rule.seen a a' ∧ TapePlus y r.rule.init r.rule.diff a'.tape ∧ Near T Den ctx t0 key.st cfg a' := by
  obtain ⟨t', n, k1, k2, k3, k4, k5, k6⟩ := h.sound y0 hy0 a.tape ht0 ctx _ hI.den
  let new := r.rule.seen.map (fun e => (e.1, (Val.value y0 e.2).toNat))
  have hnew := seenIs_exact k6 h.keys
  refine ⟨{ a with tape := t', steps := a.steps + n, loops := a.loops + 1, seen := mergeSeen a.seen a.steps new }, rfl,
    fun y hy ht => ?_⟩
  have hag : ∀ x ∈ hvars r.rule.init.left ++ hvars r.rule.init.right, y x = y0 x := by
    intro x hx
    rw [mhalf_vars m1, mhalf_vars m2] at hx
    rcases List.mem_append.1 hx with hx | hx
    · exact halfIs_agree m1 ht.left ht0.left x hx
    · exact halfIs_agree m2 ht.right ht0.right x hx
  have hval := lin_value_congr h.steps hag
  refine ⟨⟨hop, rfl, rfl, ?_, fun q => ⟨fun v hv => ?_, fun hv => ?_⟩, rfl, rfl, by simp⟩, ⟨k1.dir, ?_, ?_⟩, ?_⟩
  · simp only [Nat.cast_add, hval, k4]
  · obtain ⟨k, e1, e2⟩ := (k6 q).1 v hv
    have hd : Py.dget new q = some k := (hnew.2 q k).2 e2
    refine ⟨a.steps + k, ?_, ?_, by omega⟩
    · simp only
      rw [mergeSeen_get _ _ _ hnew.1, hd]
    · rw [lin_value_congr (h.seen (q, v) ((Py.mem_iff_dget h.keys _ _).2 hv)) hag, ← e1]
      simp
  · simp only
    rw [mergeSeen_get _ _ _ hnew.1]
    have : Py.dget new q = none := by
      rw [show new = _ from rfl, dget_map (fun v => (Val.value y0 v).toNat), hv]; rfl
    rw [this]
  · exact halfPlus_congr m1 (fun x hx => (hag x (by rw [mhalf_vars m1]; simp [hx])).symm) k1.left
  · exact halfPlus_congr m2 (fun x hx => (hag x (by rw [mhalf_vars m2]; simp [hx])).symm) k1.right
  · refine ⟨?_, ?_, ?_, fun d => ?_, k2, ?_⟩
    · rw [← hI.dir, ← ht0.dir]; exact k1.dir.symm
    · simp only
      rw [run_add]; exact k5
    · exact seenExact_merge hI.seen hnew
    · refine shape_trans (hI.shape d) ?_
      cases d
      · exact shape_plus ht0.left k1.left
      · exact shape_plus ht0.right k1.right
    · have := hI.loops
      simp only
      omega

/-- The rule fits the tape: near the head the stripped tapes agree. -/
structure Fits [DecidableEq σ] [DecidableEq S] (key key' : Strip σ S) (dist : Sides Nat) : Prop where
  st : key'.st = key.st
  dir : key'.dir = key.dir
  side : ∀ d, takeL (dist.get d) (padded key' d) = takeL (dist.get d) (padded key d)

theorem takeL_append {α : Type} {k : Nat} {l A : List α} (h : A.length = (takeL k l).length) : takeL k (A ++ dropL k l) = A := by
  refine (takeL_unique rfl ?_).symm
  rw [h]
  refine takeL_len k ?_
  have := congrArg List.length (takeL_dropL k l)
  rw [List.length_append] at this ⊢
  omega

variable [DecidableEq σ] [DecidableEq S]

/-- **Applying a limited rule is sound.** -/
theorem applyLim_ok {T : Table} {M : Machine σ S} {Den TDen hs} (F : Follows T M Den TDen hs) {z : σ} {key : Strip σ S}
    {r : LimRule σ} (h : LRuleOK T Den z key r) {u : ChainTape σ Nat} {st : S} (hf : Fits key (strip natIsOne st u) r.dist)
    (hw : u.WF z) {cfg : Config} (hm : Den (tapeDC z u st) cfg) (k : Nat) :
    match applyLim r u k with
    | .raise => False
    | .fail => ¬ ∃ y : Nat → Int, (∀ x, 0 ≤ y x) ∧ TapeIs y r.rule.init (cut r.dist u)
    | .ok (.inf states) => NeverHalts T cfg ∧ ∀ q, VisitedForever T cfg q ↔ q ∈ states
    | .ok (.apply tape n seen) => tape.WF z ∧ tape.dir = u.dir ∧ 0 < n ∧ Den (tapeDC z tape st) (run T n cfg) ∧
        SeenExact T cfg n seen ∧ (∀ e, (tape.half e).map (·.sym) = (u.half e).map (·.sym)) ∧
        ¬ ∃ y : Nat → Int, (∀ x, 0 ≤ y x) ∧ TapeIs y r.rule.init (cut r.dist tape) := by
  obtain ⟨g, d, ll, lr, hL, hR, hnd, hkey, hinit, hdiff⟩ := h.full
  have hst : st = key.st := hf.st
  subst hst
  have hdir : u.dir = g.dir := by
    have := hf.dir
    rw [hkey] at this; exact this
  have hs : ∀ e, takeL (r.dist.get e) (padOf (info natIsOne) (u.half e)) = takeL (r.dist.get e) (padOf (info valIsOne) (g.half e)) := by
    intro e
    have := hf.side e
    rw [hkey] at this
    cases e <;> exact this
  obtain ⟨l1, m1, s1⟩ := match_takeL hL _ (hw .L) (hs .L)
  obtain ⟨l2, m2, s2⟩ := match_takeL hR _ (hw .R) (hs .R)
  let t0 := cut r.dist u
  replace m1 : MHalf z r.rule.init.left r.rule.diff.left t0.left l1 := by rw [hinit, hdiff]; exact m1
  replace m2 : MHalf z r.rule.init.right r.rule.diff.right t0.right l2 := by rw [hinit, hdiff]; exact m2
  have hvars : hvars r.rule.init.left ++ hvars r.rule.init.right = (l1 ++ l2).map (·.1) := by
    rw [mhalf_vars m1, mhalf_vars m2, List.map_append]
  have hnd' : ((l1 ++ l2).map (·.1)).Nodup := by
    rw [List.map_append] at hnd ⊢
    exact List.Nodup.sublist (s1.append s2) hnd
  let ctx : Dir → Nat → σ := fun e => unrollOn (fun _ => z) (dropL (r.dist.get e) (u.half e))
  have hctx : ∀ (t : ChainTape σ Nat) (w : ChainTape σ Nat), w.dir = t.dir → (∀ e, w.half e = t.half e ++ dropL (r.dist.get e) (u.half e)) →
      zoneDC ctx t key.st = tapeDC z w key.st := by
    intro t w h1 h2
    unfold zoneDC tapeDC
    rw [h1]
    congr 1
    funext e
    rw [unroll_eq_on, h2, unrollOn_append]
  let c : SimSt σ S Nat := fresh t0 key.st
  have hN0 : Near T Den ctx t0 key.st cfg c := by
    refine ⟨rfl, ?_, seenExact_nil _ _, fun e => shape_refl _, fun e b hb h0 => ?_, le_refl _⟩
    · show Den (zoneDC ctx t0 key.st) cfg
      rw [hctx t0 u rfl (fun e => by rw [half_cut, takeL_dropL])]
      exact hm
    · have hb : b ∈ t0.half e := hb
      rw [half_cut] at hb
      exact absurd (wf_pos (hw e) b (takeL_mem hb) 0 h0) (by omega)
  classical
  have hex : ∀ a : SimSt σ S Nat, ∃ a' : SimSt σ S Nat, a'.loops = a.loops + 1 ∧ (Near T Den ctx t0 key.st cfg a → a.op = .running →
      ∀ y : Nat → Int, (∀ x, 0 ≤ y x) → TapeIs y r.rule.init a.tape →
      Reaches y r.rule.steps r.rule.seen a a' ∧ TapePlus y r.rule.init r.rule.diff a'.tape ∧ Near T Den ctx t0 key.st cfg a') := by
    intro a
    by_cases hy : Near T Den ctx t0 key.st cfg a ∧ a.op = .running ∧ ∃ y : Nat → Int, (∀ x, 0 ≤ y x) ∧ TapeIs y r.rule.init a.tape
    · obtain ⟨hI, hop, y, hy, ht⟩ := hy
      obtain ⟨a', e1, e2⟩ := near_next h m1 m2 hI hop hy ht
      exact ⟨a', e1, fun _ _ => e2⟩
    · exact ⟨{ a with loops := a.loops + 1 }, rfl, fun h1 h2 y h3 h4 => absurd ⟨h1, h2, y, h3, h4⟩ hy⟩
  choose next hnl hnext using hex
  have hloops : ∀ i, (next^[i] c).loops = i := by
    intro i
    induction i with
    | zero => rfl
    | succ i ih => rw [Function.iterate_succ_apply', hnl, ih]
  have hcore := applyDiff_core (c := c) m1 m2 hnd' (by rw [← hvars]; exact h.steps) (by rw [← hvars]; exact h.seen) h.keys
    (show u.dir = r.rule.init.dir by rw [hinit]; exact hdir) rfl (Inv := Near T Den ctx t0 key.st cfg) (next := next) hN0
    (fun y hy a ha hop _ _ ht => hnext a ha hop y hy ht) k
  unfold applyLim
  change match applyDiff r.rule (cut r.dist u) k with
    | .raise => _ | .fail => _ | .ok (.inf states) => _ | .ok (.apply tape n seen) => _ at hcore
  match hd : applyDiff r.rule (cut r.dist u) k, hcore with
  | .raise, hcore => exact hcore
  | .fail, hcore => exact hcore
  | .ok (.inf states), hcore =>
    obtain ⟨hstates, hc⟩ := hcore
    simp only
    have hge : ∀ i, i ≤ (next^[i] c).steps := by
      intro i
      obtain ⟨y, hI, -⟩ := hc i
      have := hI.loops
      rw [hloops] at this
      exact this
    have hkeys : ∀ q, q ∈ states ↔ ∃ v, Py.dget r.rule.seen q = some v := by
      intro q
      rw [hstates]
      constructor
      · intro hq
        obtain ⟨e, he, rfl⟩ := List.mem_map.1 hq
        exact ⟨e.2, (Py.mem_iff_dget h.keys _ _).1 he⟩
      · rintro ⟨v, hv⟩
        exact List.mem_map.2 ⟨_, (Py.mem_iff_dget h.keys _ _).2 hv, rfl⟩
    refine ⟨fun n => ?_, fun q => ⟨fun hv => ?_, fun hq => ?_⟩⟩
    · obtain ⟨y, hI, -⟩ := hc n
      exact run_some_mono (hge n) (F.live _ _ hI.den).1
    · by_contra hq
      have hnone : Py.dget r.rule.seen q = none := by
        cases hd : Py.dget r.rule.seen q with
        | none => rfl
        | some v => exact absurd ((hkeys q).2 ⟨v, hd⟩) hq
      have hconst : ∀ i, Py.dget (next^[i] c).seen q = none := by
        intro i
        induction i with
        | zero => rfl
        | succ i ih =>
          obtain ⟨y, -, hr⟩ := hc i
          rw [(hr.seen q).2 hnone]; exact ih
      obtain ⟨t, -, ht⟩ := hv 0
      obtain ⟨t', ht'⟩ := lastSeen_exists (n := (next^[t + 1] c).steps) (by have := hge (t + 1); omega) ht
      obtain ⟨y, hI, -⟩ := hc (t + 1)
      have := (hI.seen.2 q t').2 ht'
      rw [hconst] at this; cases this
    · obtain ⟨v, hv⟩ := (hkeys q).1 hq
      intro t
      obtain ⟨y, -, hr⟩ := hc t
      obtain ⟨n, e1, -, e3⟩ := (hr.seen q).1 v hv
      obtain ⟨-, hI, -⟩ := hc (t + 1)
      have := hge t
      exact ⟨n, by omega, ((hI.seen.2 q n).1 e1).2.1⟩
  | .ok (.apply t n seen), hcore =>
    obtain ⟨⟨R, hR1, hI, hLd⟩, hsk, hmax⟩ := hcore
    simp only
    generalize hcR : next^[R] c = cR at *
    have hlo : R ≤ cR.steps := by
      have := hI.loops
      rw [← hcR, hloops] at this
      rw [← hcR]; exact this
    have hsteps : cR.steps = n := by have := hLd.steps; simpa [c, fresh] using this
    have htape := hLd.tape
    have hden := hI.den
    rw [htape, hsteps] at hden
    have hlen : ∀ e, (t.half e).length = (takeL (r.dist.get e) (u.half e)).length := by
      intro e
      have := (hI.shape e).length_eq
      rw [htape, half_cut] at this
      exact this.symm
    have hdt : t.dir = u.dir := by rw [← htape]; exact hI.dir
    let w : ChainTape σ Nat := { t with left := t.left ++ dropL r.dist.left u.left, right := t.right ++ dropL r.dist.right u.right }
    have hwh : ∀ e, w.half e = t.half e ++ dropL (r.dist.get e) (u.half e) := by intro e; cases e <;> rfl
    have hshape : ∀ e, Shape (u.half e) (w.half e) := by
      intro e
      rw [hwh]
      conv_lhs => rw [← takeL_dropL (r.dist.get e) (u.half e)]
      have h1 := hI.shape e
      rw [htape, half_cut] at h1
      exact List.rel_append h1 (shape_refl _)
    have hwf : w.WF z := by
      intro e
      refine wf_same (hshape e) ?_ (hw e)
      rw [hwh]
      · intro b hb h0
        rcases List.mem_append.1 hb with hb | hb
        · exact hI.pos e b (by rw [htape]; exact hb) h0
        · refine absurd (wf_pos (hw e) b ?_ 0 h0) (by omega)
          rw [← takeL_dropL (r.dist.get e) (u.half e)]
          exact List.mem_append_right _ hb
    have hcutw : cut r.dist w = t := by
      have h1 : (cut r.dist w).left = t.left := takeL_append (hlen .L)
      have h2 : (cut r.dist w).right = t.right := takeL_append (hlen .R)
      have h3 : (cut r.dist w).dir = t.dir := rfl
      cases hc : cut r.dist w
      rw [hc] at h1 h2 h3
      simp only at h1 h2 h3
      rw [h1, h2, h3]
    refine ⟨hwf, hdt, by omega, ?_, ⟨?_, fun q q' => ?_⟩, fun e => (shape_syms (hshape e)).symm, ?_⟩
    · rw [← hctx t w rfl hwh]; exact hden
    · rw [Py.NodupKeys, hsk]; exact h.keys
    · rw [← hsteps, ← hI.seen.2 q q', hLd.seen q]
      cases Py.dget seen q with
      | none => simp [c, fresh, Py.dget]
      | some m => simp [c, fresh]
    · show ¬ ∃ y : Nat → Int, (∀ x, 0 ≤ y x) ∧ TapeIs y r.rule.init (cut r.dist w)
      rw [hcutw]; exact hmax

end Model.Prover
