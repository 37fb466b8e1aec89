import Verif.Lemmas.ValidatorSound

/-!
# Modes and bounds only decide when the validator stops early; without functions there is no capture
-/

namespace Model.Validator

/-- `a` is `b`, or stops early: with a capture, a panic or at its bound, as far as the flags allow it -/
def Ref (c p t : Bool) {α : Type} (a b : Run α) : Prop :=
  (c = true ∧ a = .capture) ∨ (p = true ∧ a = .panic) ∨ (t = true ∧ a = .timeout) ∨ a = b

section
variable {c p t : Bool}

theorem Ref.rfl {α : Type} {a : Run α} : Ref c p t a a := .inr (.inr (.inr (Eq.refl _)))

theorem Ref.bind {α β : Type} {a b : Run α} {f g : α → Run β} (h : Ref c p t a b) (hf : ∀ x, Ref c p t (f x) (g x)) :
    Ref c p t (a >>= f) (b >>= g) := by
  rcases h with ⟨h, e⟩ | ⟨h, e⟩ | ⟨h, e⟩ | h
  · subst e; exact .inl ⟨h, Eq.refl _⟩
  · subst e; exact .inr (.inl ⟨h, Eq.refl _⟩)
  · subst e; exact .inr (.inr (.inl ⟨h, Eq.refl _⟩))
  · subst h
    cases a with
    | ok x => exact hf x
    | err => exact .rfl
    | panic => exact .rfl
    | capture => exact .rfl
    | timeout => exact .rfl

theorem Ref.try? {α : Type} {a b : Run α} (h : Ref c p t a b) : Ref c p t a.try? b.try? := by
  rcases h with ⟨h, e⟩ | ⟨h, e⟩ | ⟨h, e⟩ | h
  · subst e; exact .inl ⟨h, Eq.refl _⟩
  · subst e; exact .inr (.inl ⟨h, Eq.refl _⟩)
  · subst e; exact .inr (.inr (.inl ⟨h, Eq.refl _⟩))
  · subst h; exact .rfl

/-- the mode `m` stops at least where `m'` stops -/
structure Below (c p : Bool) (m m' : Mode) : Prop where
  strict : m.strict = m'.strict ∨ (c = true ∧ m'.strict = false)
  wrap : m.wrap = m'.wrap ∨ (p = true ∧ m.wrap = false)

/-- the bound `k` stops at least where `k'` stops -/
def Shorter (t : Bool) (k k' : Nat) : Prop := k = k' ∨ (t = true ∧ k ≤ k')

theorem Shorter.succ {k k' : Nat} (h : Shorter t (k + 1) k') : ∃ n, k' = n + 1 ∧ Shorter t k n := by
  rcases h with h | ⟨h, e⟩
  · exact ⟨k, h.symm, .inl rfl⟩
  · exact ⟨k' - 1, by omega, .inr ⟨h, by omega⟩⟩

theorem Shorter.zero {α : Type} {k' : Nat} {b : Run α} (h : Shorter t 0 k') (hb : k' = 0 → b = .timeout) :
    Ref c p t .timeout b := by
  rcases h with h | ⟨h, _⟩
  · rw [hb h.symm]; exact .rfl
  · exact .inr (.inr (.inl ⟨h, Eq.refl _⟩))

variable {m m' : Mode} (h : Below c p m m')
include h

/-- a test of strict mode -/
theorem Below.test {α : Type} (q : Bool) {a b : Run α} (hab : Ref c p t a b) :
    Ref c p t (if m.strict && q then .capture else a) (if m'.strict && q then .capture else b) := by
  rcases h.strict with e | ⟨e1, e2⟩
  · rw [e]
    split
    · exact .rfl
    · exact hab
  · rw [e2]
    by_cases g : (m.strict && q) = true
    · rw [if_pos g]; exact .inl ⟨e1, Eq.refl _⟩
    · rw [if_neg g]; exact hab

theorem u64_ref (n : Nat) : Ref c p t (u64 m n) (u64 m' n) := by
  unfold u64
  split
  · exact .rfl
  · rcases h.wrap with e | ⟨e1, e2⟩
    · rw [e]; exact .rfl
    · rw [e2]; exact .inr (.inl ⟨e1, Eq.refl _⟩)

theorem addVar_ref (x d : Nat) : ∀ l, Ref c p t (VarSum.addVar m x d l) (VarSum.addVar m' x d l)
  | [] => .rfl
  | (y, _) :: l => by
    unfold VarSum.addVar
    split
    · exact (u64_ref h _).bind fun _ => .rfl
    · split
      · exact .rfl
      · exact (addVar_ref x d l).bind fun _ => .rfl

theorem addVars_ref : ∀ (r l : List (Nat × Nat)), Ref c p t (VarSum.addVars m l r) (VarSum.addVars m' l r)
  | [], _ => .rfl
  | (x, d) :: r, l => (addVar_ref h x d l).bind fun l => addVars_ref r l

theorem add_ref (a b : VarSum) : Ref c p t (a.add m b) (a.add m' b) :=
  (u64_ref h _).bind fun _ => (addVars_ref h _ _).bind fun _ => .rfl

theorem mulVars_ref (n : Nat) : ∀ l, Ref c p t (VarSum.mulVars m n l) (VarSum.mulVars m' n l)
  | [] => .rfl
  | (_, _) :: l => (u64_ref h _).bind fun _ => (mulVars_ref n l).bind fun _ => .rfl

theorem mul_ref (a : VarSum) (n : Nat) : Ref c p t (a.mul m n) (a.mul m' n) := by
  unfold VarSum.mul
  split
  · exact .rfl
  split
  · exact .rfl
  · exact (mulVars_ref h n _).bind fun _ => (u64_ref h _).bind fun _ => .rfl

theorem substLoop_ref (σ : Subst) : ∀ l acc rs,
    Ref c p t (VarSum.substLoop m σ l acc rs) (VarSum.substLoop m' σ l acc rs)
  | [], _, _ => .rfl
  | (_, _) :: l, acc, rs => by
    unfold VarSum.substLoop
    split
    · exact (mul_ref h _ _).bind fun _ => (add_ref h _ _).bind fun acc => substLoop_ref σ l acc rs
    · exact (mul_ref h _ _).bind fun _ => (add_ref h _ _).bind fun acc => substLoop_ref σ l acc rs
    · exact substLoop_ref σ l acc _

theorem substBound_ref : ∀ l acc, Ref c p t (VarSum.substBound m l acc) (VarSum.substBound m' l acc)
  | [], _ => .rfl
  | (_, _, _) :: l, acc => by
    unfold VarSum.substBound
    split
    · exact .rfl
    · exact (mul_ref h _ _).bind fun _ => (add_ref h _ _).bind fun acc => substBound_ref l acc

theorem VarSum.subst_ref (σ : Subst) (s : VarSum) : Ref c p t (s.subst m σ) (s.subst m' σ) :=
  (substLoop_ref h σ _ _ _).bind fun _ => h.test _ ((substBound_ref h _ _).bind fun _ => .rfl)

theorem CountExpr.subst_ref : ∀ (e : CountExpr) (σ : Subst), Ref c p t (e.subst m σ) (e.subst m' σ)
  | .sum s, σ => VarSum.subst_ref h σ s
  | .iter x f n b, σ => by
    unfold CountExpr.subst
    exact h.test _ ((subst_ref f _).bind fun _ => (subst_ref n σ).bind fun _ => (subst_ref b σ).bind fun _ => .rfl)

theorem CountExpr.normalize_ref : ∀ e : CountExpr, Ref c p t (e.normalize m) (e.normalize m')
  | .sum s => .rfl
  | .iter x f n b => by
    refine (normalize_ref f).bind fun f' => (normalize_ref n).bind fun n' => (normalize_ref b).bind fun b' => ?_
    split
    · exact .rfl
    split
    · exact .rfl
    split
    · exact CountExpr.subst_ref h _ _
    · exact .rfl

theorem CountExpr.checkedSubBy_ref {k k' : CountExpr → CountExpr → Run Bool} (hk : ∀ a b, Ref c p t (k a b) (k' a b))
    (a b : CountExpr) : Ref c p t (checkedSubBy m k a b) (checkedSubBy m' k' a b) :=
  (normalize_ref h a).bind fun _ => (normalize_ref h b).bind fun _ => (hk _ _).bind fun _ => .rfl

theorem CountExpr.knownEqual_ref : ∀ n n', Shorter t n n' → ∀ a b : CountExpr,
    Ref c p t (knownEqual m n a b) (knownEqual m' n' a b)
  | 0, _, hn, _, _ => hn.zero fun e => by subst e; rfl
  | k + 1, n', hn, a, b => by
    obtain ⟨k', rfl, hk⟩ := hn.succ
    cases a with
    | sum s =>
      cases b with
      | sum t => exact .rfl
      | iter => exact .rfl
    | iter x f n b1 =>
      cases b with
      | sum t => exact .rfl
      | iter y g q b2 =>
        unfold knownEqual
        refine h.test _ ?_
        refine (subst_ref h g _).bind fun g' => (knownEqual_ref k k' hk f g').bind fun e => ?_
        split
        · refine (checkedSubBy_ref h (knownEqual_ref k k' hk) n q).bind fun d => ?_
          cases d with
          | some d => exact (normalize_ref h _).bind fun l => knownEqual_ref k k' hk l b2
          | none =>
            refine (checkedSubBy_ref h (knownEqual_ref k k' hk) q n).bind fun d => ?_
            cases d with
            | some d => exact (normalize_ref h _).bind fun l => knownEqual_ref k k' hk b1 l
            | none => exact .rfl
        · exact .rfl

theorem CountExpr.addVarSum_ref (r : CountExpr) (s : VarSum) : Ref c p t (addVarSum m r s) (addVarSum m' r s) :=
  (add_ref h _ _).bind fun _ => .rfl

theorem CountExpr.checkedAdd_ref (a b : CountExpr) : Ref c p t (checkedAdd m a b) (checkedAdd m' a b) := by
  cases a <;> cases b
  · exact (add_ref h _ _).bind fun _ => .rfl
  · exact (addVarSum_ref h _ _).bind fun _ => .rfl
  · exact (addVarSum_ref h _ _).bind fun _ => .rfl
  · exact .rfl

theorem Count.subst_ref (σ : Subst) : ∀ e : Count, Ref c p t (e.subst m σ) (e.subst m' σ)
  | .fin e => (CountExpr.subst_ref h e σ).bind fun _ => .rfl
  | .inf => .rfl

theorem Count.checkedAdd_ref (a b : Count) : Ref c p t (a.checkedAdd m b) (a.checkedAdd m' b) := by
  cases a <;> cases b
  · exact (CountExpr.checkedAdd_ref h _ _).bind fun _ => .rfl
  all_goals exact .rfl

variable {n n' : Nat} (hn : Shorter t n n')

include hn in
theorem Count.checkedSub_ref (a b : Count) : Ref c p t (a.checkedSub m n b) (a.checkedSub m' n' b) := by
  cases a <;> cases b
  · exact (CountExpr.checkedSubBy_ref h (CountExpr.knownEqual_ref h n n' hn) _ _).bind fun _ => .rfl
  all_goals exact .rfl

namespace HalfTape

theorem normalize_ref : ∀ l : HalfTape, Ref c p t (l.normalize m) (l.normalize m')
  | [] => .rfl
  | b :: l => by
    refine (normalize_ref l).bind fun r => ?_
    split
    · exact .rfl
    · cases r with
      | nil => exact .rfl
      | cons a r =>
        simp only
        split
        · exact (Count.checkedAdd_ref h _ _).bind fun _ => .rfl
        · exact .rfl

theorem pop_ref (l : HalfTape) : Ref c p t (l.pop m) (l.pop m') := (normalize_ref h l).bind fun _ => .rfl

theorem subst_ref (σ : Subst) : ∀ l : HalfTape, Ref c p t (l.subst m σ) (l.subst m' σ)
  | [] => .rfl
  | b :: l => (Count.subst_ref h σ b.rep).bind fun _ => (subst_ref σ l).bind fun _ => .rfl

include hn in
theorem strip_ref : ∀ k k', Shorter t k k' → ∀ cur sub : HalfTape, Ref c p t (strip m n k cur sub) (strip m' n' k' cur sub)
  | 0, k', hk, cur, [] => by cases k' <;> (unfold strip; exact .rfl)
  | _ + 1, k', hk, cur, [] => by cases k' <;> (unfold strip; exact .rfl)
  | 0, k', hk, cur, _ :: _ => hk.zero fun e => by subst e; rfl
  | k + 1, k', hk, cur, s :: sub => by
    obtain ⟨k', rfl, hk'⟩ := hk.succ
    cases cur with
    | nil => exact .rfl
    | cons a cur =>
      unfold strip
      split
      · refine (Count.checkedSub_ref h hn _ _).bind fun d => ?_
        cases d with
        | none => exact .rfl
        | some d => exact strip_ref k k' hk' _ _
      · refine (pop_ref h _).try?.bind fun x => (pop_ref h _).try?.bind fun y => ?_
        split
        · split
          · exact .rfl
          · exact strip_ref k k' hk' _ _
        · exact .rfl

include hn in
theorem replace_ref (l old new : HalfTape) : Ref c p t (l.replace m n old new) (l.replace m' n' old new) :=
  (normalize_ref h _).bind fun _ => (normalize_ref h _).bind fun _ => (strip_ref h hn n n' hn _ _).bind fun _ => .rfl

include hn in
theorem equivalent_ref (l o : HalfTape) : Ref c p t (l.equivalent m n o) (l.equivalent m' n' o) :=
  (replace_ref h hn l o []).try?.bind fun _ => .rfl

end HalfTape

namespace Config

theorem step_ref (tm : TM) (k : Config) : Ref c p t (k.step m tm) (k.step m' tm) :=
  (HalfTape.pop_ref h _).bind fun _ => .rfl

theorem stepN_ref (tm : TM) : ∀ n (k : Config), Ref c p t (k.stepN m tm n) (k.stepN m' tm n)
  | 0, _ => .rfl
  | n + 1, k => (step_ref h tm k).bind fun k => stepN_ref tm n k

theorem subst_ref (σ : Subst) (k : Config) : Ref c p t (k.subst m σ) (k.subst m' σ) :=
  (HalfTape.subst_ref h σ _).bind fun _ => (HalfTape.subst_ref h σ _).bind fun _ => .rfl

include hn in
theorem replace_ref (k old new : Config) : Ref c p t (k.replace m n old new) (k.replace m' n' old new) := by
  unfold Config.replace
  split
  · exact (HalfTape.replace_ref h hn _ _ _).bind fun _ => (HalfTape.replace_ref h hn _ _ _).bind fun _ => .rfl
  · exact .rfl

include hn in
theorem equivalent_ref (k o : Config) : Ref c p t (k.equivalent m n o) (k.equivalent m' n' o) := by
  unfold Config.equivalent
  split
  · refine (HalfTape.equivalent_ref h hn _ _).bind fun b => ?_
    split
    · exact HalfTape.equivalent_ref h hn _ _
    · exact .rfl
  · exact .rfl

end Config

include hn

theorem tryApply_ref (k : Config) (r : Rule) (σ : Subst) : Ref c p t (tryApply m n k r σ) (tryApply m' n' k r σ) :=
  (Config.subst_ref h σ _).bind fun _ => (Config.subst_ref h σ _).bind fun _ => Config.replace_ref h hn _ _ _

theorem applyStep_ref (tm : TM) (k : Config) (prev : List Rule) (ind : Option Rule) (s : ProofStep) :
    Ref c p t (applyStep m n tm k prev ind s) (applyStep m' n' tm k prev ind s) := by
  cases s with
  | tmSteps j => exact Config.stepN_ref h tm j k
  | rule id σ =>
    simp only [applyStep]
    split
    · exact .rfl
    · exact tryApply_ref h hn k _ σ
  | induct σ =>
    simp only [applyStep]
    split
    · exact .rfl
    · split
      · exact .rfl
      · exact tryApply_ref h hn k _ σ
  | admit => exact .rfl

theorem validateProof_ref (tm : TM) (prev : List Rule) (ind : Option Rule) (final : Config) : ∀ l (k : Config),
    Ref c p t (validateProof m n tm prev ind final l k) (validateProof m' n' tm prev ind final l k)
  | [], k => (Config.equivalent_ref h hn k final).bind fun _ => .rfl
  | .admit :: _, _ => .rfl
  | .tmSteps _ :: l, k => (applyStep_ref h hn tm k prev ind _).bind fun k => validateProof_ref tm prev ind final l k
  | .rule _ _ :: l, k => (applyStep_ref h hn tm k prev ind _).bind fun k => validateProof_ref tm prev ind final l k
  | .induct _ :: l, k => (applyStep_ref h hn tm k prev ind _).bind fun k => validateProof_ref tm prev ind final l k

theorem validateRule_ref (tm : TM) (r : Rule) (prev : List Rule) :
    Ref c p t (validateRule m n tm r prev) (validateRule m' n' tm r prev) := by
  unfold validateRule
  split
  · exact validateProof_ref h hn tm prev _ _ _ _
  · exact (Config.subst_ref h _ _).bind fun _ => (Config.subst_ref h _ _).bind fun _ =>
      (validateProof_ref h hn tm prev _ _ _ _).bind fun _ =>
      (Config.subst_ref h _ _).bind fun _ => (Config.subst_ref h _ _).bind fun _ => validateProof_ref h hn tm prev _ _ _ _

theorem validateRules_ref (tm : TM) : ∀ l prev : List Rule,
    Ref c p t (validateRules m n tm prev l) (validateRules m' n' tm prev l)
  | [], _ => .rfl
  | r :: l, prev => (validateRule_ref h hn tm r prev).bind fun _ => validateRules_ref tm l _

end

/-! ### No functions -/

/-- the outcome is not a capture, and a value satisfies `P` -/
def Good {α : Type} (P : α → Prop) (r : Run α) : Prop :=
  match r with
  | .ok a => P a
  | .capture => False
  | _ => True

theorem Good.bind {α β : Type} {P : α → Prop} {Q : β → Prop} {r : Run α} {f : α → Run β} (h : Good P r)
    (hf : ∀ a, P a → Good Q (f a)) : Good Q (r >>= f) := by
  cases r with
  | ok a => exact hf a h
  | capture => exact h.elim
  | err => trivial
  | panic => trivial
  | timeout => trivial

theorem Good.mono {α : Type} {P Q : α → Prop} {r : Run α} (h : Good P r) (hq : ∀ a, P a → Q a) : Good Q r := by
  cases r <;> first | exact hq _ h | exact h

theorem Good.try? {α : Type} {P : α → Prop} {r : Run α} (h : Good P r) : Good (fun o => ∀ a, o = some a → P a) r.try? := by
  cases r with
  | ok a => rintro _ ⟨⟩; exact h
  | capture => exact h
  | err => rintro _ ⟨⟩
  | panic => trivial
  | timeout => trivial

/-- no function in the count -/
def CountExpr.Plain : CountExpr → Prop
  | .sum _ => True
  | .iter .. => False

def Count.Plain : Count → Prop
  | .fin e => e.Plain
  | .inf => True

def HalfTape.Plain (t : HalfTape) : Prop := ∀ b ∈ t, b.rep.Plain

def Config.Plain (c : Config) : Prop := HalfTape.Plain c.left ∧ HalfTape.Plain c.right

def Subst.Plain (σ : Subst) : Prop := ∀ p ∈ σ, p.2.Plain

def ProofStep.Plain : ProofStep → Prop
  | .rule _ σ => σ.Plain
  | .induct σ => σ.Plain
  | _ => True

def Rule.Plain (r : Rule) : Prop :=
  r.init.Plain ∧ r.final.Plain ∧
  match r.proof with
  | .simple p => ∀ s ∈ p, s.Plain
  | .inductive p q => (∀ s ∈ p, s.Plain) ∧ ∀ s ∈ q, s.Plain

section
variable (m : Mode)

theorem u64_good (n : Nat) : Good (fun _ => True) (u64 m n) := by
  unfold u64; split
  · trivial
  · split <;> trivial

theorem addVar_good (x c : Nat) : ∀ l, Good (fun _ => True) (VarSum.addVar m x c l)
  | [] => trivial
  | (y, d) :: l => by
    unfold VarSum.addVar
    split
    · exact (u64_good m _).bind fun _ _ => trivial
    · split
      · trivial
      · exact (addVar_good x c l).bind fun _ _ => trivial

theorem addVars_good : ∀ (r l : List (Nat × Nat)), Good (fun _ => True) (VarSum.addVars m l r)
  | [], _ => trivial
  | (x, c) :: r, l => (addVar_good m x c l).bind fun l _ => addVars_good r l

theorem add_good (a b : VarSum) : Good (fun _ => True) (a.add m b) :=
  (u64_good m _).bind fun _ _ => (addVars_good m _ _).bind fun _ _ => trivial

theorem mulVars_good (n : Nat) : ∀ l, Good (fun _ => True) (VarSum.mulVars m n l)
  | [] => trivial
  | (_, _) :: l => (u64_good m _).bind fun _ _ => (mulVars_good n l).bind fun _ _ => trivial

theorem mul_good (a : VarSum) (n : Nat) : Good (fun _ => True) (a.mul m n) := by
  unfold VarSum.mul
  split
  · trivial
  split
  · trivial
  · exact (mulVars_good m n _).bind fun _ _ => (u64_good m _).bind fun _ _ => trivial

theorem Subst.Plain.get {σ : Subst} (h : σ.Plain) {x : Nat} {e : CountExpr} (he : σ.get x = some e) : e.Plain := by
  unfold Subst.get at he
  induction σ with
  | nil => cases he
  | cons p σ ih =>
    rw [List.lookup_cons] at he
    split at he
    · cases he; exact h p (by simp)
    · exact ih (fun q hq => h q (by simp [hq])) he

theorem substLoop_good {σ : Subst} (h : σ.Plain) : ∀ l acc, Good (fun p => p.2 = []) (VarSum.substLoop m σ l acc [])
  | [], acc => rfl
  | (_, _) :: l, acc => by
    unfold VarSum.substLoop
    split
    · exact (mul_good m _ _).bind fun _ _ => (add_good m _ _).bind fun acc _ => substLoop_good h l acc
    · exact (mul_good m _ _).bind fun _ _ => (add_good m _ _).bind fun acc _ => substLoop_good h l acc
    · next e => exact (h.get e).elim

theorem CountExpr.subst_good {σ : Subst} (h : σ.Plain) {e : CountExpr} (he : e.Plain) : Good Plain (e.subst m σ) := by
  cases e with
  | iter => exact he.elim
  | sum s =>
    refine (substLoop_good m h _ _).bind fun p hp => ?_
    rw [hp]
    simp only [VarSum.clash, Bool.and_false]
    exact trivial

theorem CountExpr.checkedSub_good (n : Nat) {a b : CountExpr} (ha : a.Plain) (hb : b.Plain) :
    Good (fun o => ∀ e, o = some e → e.Plain) (a.checkedSub m n b) := by
  cases a with
  | iter => exact ha.elim
  | sum s =>
    cases b with
    | iter => exact hb.elim
    | sum t =>
      cases n with
      | zero => trivial
      | succ n =>
        show Good _ (if _ then _ else _)
        split
        · rintro e ⟨⟩; trivial
        · intro e he
          cases hc : s.normalize.checkedSub t.normalize with
          | none => simp only [hc] at he; cases he
          | some q => simp only [hc] at he; cases he; trivial

theorem CountExpr.checkedAdd_good {a b : CountExpr} (ha : a.Plain) (hb : b.Plain) :
    Good (fun o => ∀ e, o = some e → e.Plain) (a.checkedAdd m b) := by
  cases a with
  | iter => exact ha.elim
  | sum s =>
    cases b with
    | iter => exact hb.elim
    | sum t => exact (add_good m s t).bind fun r _ => by rintro e ⟨⟩; trivial

theorem Count.subst_good {σ : Subst} (h : σ.Plain) {c : Count} (hc : c.Plain) : Good Plain (c.subst m σ) := by
  cases c with
  | inf => trivial
  | fin e => exact (CountExpr.subst_good m h hc).bind fun _ h => h

theorem Count.checkedAdd_good {a b : Count} (ha : a.Plain) (hb : b.Plain) :
    Good (fun o => ∀ e, o = some e → e.Plain) (a.checkedAdd m b) := by
  cases a with
  | inf => cases b <;> (rintro e ⟨⟩; trivial)
  | fin a =>
    cases b with
    | inf => rintro e ⟨⟩; trivial
    | fin b =>
      refine (CountExpr.checkedAdd_good m ha hb).bind fun o ho => ?_
      intro e he
      cases o with
      | none => cases he
      | some d => cases he; exact ho d rfl

theorem Count.checkedSub_good (n : Nat) {a b : Count} (ha : a.Plain) (hb : b.Plain) :
    Good (fun o => ∀ e, o = some e → e.Plain) (a.checkedSub m n b) := by
  cases a with
  | inf => cases b <;> (rintro e ⟨⟩; trivial)
  | fin a =>
    cases b with
    | inf => rintro e ⟨⟩
    | fin b =>
      refine (CountExpr.checkedSub_good m n ha hb).bind fun o ho => ?_
      intro e he
      cases o with
      | none => cases he
      | some d => cases he; exact ho d rfl

theorem Count.decrement_plain {a b : Count} (ha : a.Plain) (h : a.decrement = some b) : b.Plain := by
  cases a with
  | inf => cases h; trivial
  | fin e =>
    cases e with
    | iter => exact ha.elim
    | sum s =>
      simp only [Count.decrement, CountExpr.decrement] at h
      cases hs : s.decrement with
      | none => rw [hs] at h; cases h
      | some t => rw [hs] at h; cases h; trivial

namespace HalfTape

theorem plain_cons {b : Block} {t : HalfTape} : HalfTape.Plain (b :: t) ↔ b.rep.Plain ∧ HalfTape.Plain t := by
  simp [HalfTape.Plain]

theorem plain_append {s t : HalfTape} (hs : HalfTape.Plain s) (ht : HalfTape.Plain t) : HalfTape.Plain (s ++ t) := by
  intro b hb
  rcases List.mem_append.1 hb with h | h
  · exact hs b h
  · exact ht b h

theorem normalize_good : ∀ {t : HalfTape}, HalfTape.Plain t → Good HalfTape.Plain (t.normalize m)
  | [], h => h
  | b :: t, h => by
    rw [plain_cons] at h
    refine (normalize_good h.2).bind fun r hr => ?_
    split
    · exact hr
    · cases r with
      | nil => exact plain_cons.2 ⟨h.1, hr⟩
      | cons l r =>
        have hr' := plain_cons.1 hr
        simp only
        split
        · refine (Count.checkedAdd_good m hr'.1 h.1).bind fun n hn => ?_
          cases n with
          | none => exact plain_cons.2 ⟨h.1, hr⟩
          | some n => exact plain_cons.2 ⟨hn n rfl, hr'.2⟩
        · exact plain_cons.2 ⟨h.1, hr⟩

theorem pop_good {t : HalfTape} (h : HalfTape.Plain t) : Good (fun p => HalfTape.Plain p.2) (t.pop m) := by
  refine (normalize_good m h).bind fun t ht => ?_
  cases t with
  | nil => trivial
  | cons b t =>
    rw [plain_cons] at ht
    simp only
    split
    · trivial
    · trivial
    · next d a s hd hs =>
      have hr : HalfTape.Plain (if d.isZero then t else ⟨b.symbols, d⟩ :: t) := by
        split
        · exact ht.2
        · exact plain_cons.2 ⟨Count.decrement_plain ht.1 hd, ht.2⟩
      show HalfTape.Plain (if _ then _ else _)
      split
      · exact hr
      · exact plain_cons.2 ⟨trivial, hr⟩

theorem subst_good {σ : Subst} (h : σ.Plain) : ∀ {t : HalfTape}, HalfTape.Plain t → Good HalfTape.Plain (t.subst m σ)
  | [], h => h
  | b :: t, ht => by
    rw [plain_cons] at ht
    exact (Count.subst_good m h ht.1).bind fun n hn => (subst_good h ht.2).bind fun t ht => plain_cons.2 ⟨hn, ht⟩

theorem strip_good (n : Nat) : ∀ k {cur sub : HalfTape}, HalfTape.Plain cur → HalfTape.Plain sub →
    Good HalfTape.Plain (strip m n k cur sub)
  | 0, _, [], hc, _ => by unfold strip; exact hc
  | _ + 1, _, [], hc, _ => by unfold strip; exact hc
  | 0, _, _ :: _, _, _ => trivial
  | _ + 1, [], _ :: _, _, _ => trivial
  | k + 1, c :: cur, s :: sub, hc, hs => by
    have hc' := plain_cons.1 hc
    have hs' := plain_cons.1 hs
    unfold strip
    split
    · refine (Count.checkedSub_good m n hc'.1 hs'.1).bind fun d hd => ?_
      cases d with
      | none => trivial
      | some d =>
        refine strip_good n k ?_ hs'.2
        split
        · exact hc'.2
        · exact plain_cons.2 ⟨hd d rfl, hc'.2⟩
    · refine (pop_good m hc).try?.bind fun p hp => (pop_good m hs).try?.bind fun q hq => ?_
      split
      · next a cur' b sub' =>
        split
        · trivial
        · exact strip_good n k (hp _ rfl) (hq _ rfl)
      · trivial

theorem replace_good (n : Nat) {t old new : HalfTape} (h1 : HalfTape.Plain t) (h2 : HalfTape.Plain old)
    (h3 : HalfTape.Plain new) : Good HalfTape.Plain (t.replace m n old new) :=
  (normalize_good m h1).bind fun _ g1 => (normalize_good m h2).bind fun _ g2 =>
    (strip_good m n n g1 g2).bind fun _ g3 => plain_append h3 g3

theorem equivalent_good (n : Nat) {t o : HalfTape} (h1 : HalfTape.Plain t) (h2 : HalfTape.Plain o) :
    Good (fun _ => True) (t.equivalent m n o) := by
  refine (replace_good m n h1 h2 (by intro b hb; cases hb)).try?.bind fun p _ => ?_
  cases p <;> trivial

end HalfTape

namespace Config

theorem step_good (tm : TM) {c : Config} (h : c.Plain) : Good Config.Plain (c.step m tm) := by
  have hf : HalfTape.Plain c.front := by
    unfold Config.front; split
    · exact h.1
    · exact h.2
  refine (HalfTape.pop_good m hf).bind fun p hp => ?_
  simp only
  have hl : HalfTape.Plain (match c.dir with | .L => p.2 | .R => c.left) := by
    split
    · exact hp
    · exact h.1
  have hr : HalfTape.Plain (match c.dir with | .L => c.right | .R => p.2) := by
    split
    · exact h.2
    · exact hp
  cases c.state with
  | none => trivial
  | some q =>
    simp only
    have ht : Good (fun _ => True) (tm.trans q p.1) := by
      unfold TM.trans
      split
      · trivial
      · split <;> trivial
    refine ht.bind fun t _ => ?_
    split
    · trivial
    · exact ⟨hl, HalfTape.plain_cons.2 ⟨trivial, hr⟩⟩
    · exact ⟨HalfTape.plain_cons.2 ⟨trivial, hl⟩, hr⟩

theorem stepN_good (tm : TM) : ∀ n {c : Config}, c.Plain → Good Config.Plain (c.stepN m tm n)
  | 0, _, h => h
  | n + 1, _, h => (step_good m tm h).bind fun _ h => stepN_good tm n h

theorem subst_good {σ : Subst} (h : σ.Plain) {c : Config} (hc : c.Plain) : Good Config.Plain (c.subst m σ) :=
  (HalfTape.subst_good m h hc.1).bind fun _ h1 => (HalfTape.subst_good m h hc.2).bind fun _ h2 => ⟨h1, h2⟩

theorem replace_good (n : Nat) {c old new : Config} (h1 : c.Plain) (h2 : old.Plain) (h3 : new.Plain) :
    Good Config.Plain (c.replace m n old new) := by
  unfold Config.replace
  split
  · exact (HalfTape.replace_good m n h1.1 h2.1 h3.1).bind fun _ g1 =>
      (HalfTape.replace_good m n h1.2 h2.2 h3.2).bind fun _ g2 => ⟨g1, g2⟩
  · trivial

theorem equivalent_good (n : Nat) {c o : Config} (h1 : c.Plain) (h2 : o.Plain) :
    Good (fun _ => True) (c.equivalent m n o) := by
  unfold Config.equivalent
  split
  · refine (HalfTape.equivalent_good m n h1.1 h2.1).bind fun b _ => ?_
    cases b
    · trivial
    · exact HalfTape.equivalent_good m n h1.2 h2.2
  · trivial

end Config

theorem tryApply_good (n : Nat) {c : Config} {r : Rule} {σ : Subst} (hc : c.Plain) (hr : r.Plain) (hσ : σ.Plain) :
    Good Config.Plain (tryApply m n c r σ) :=
  (Config.subst_good m hσ hr.1).bind fun _ h1 => (Config.subst_good m hσ hr.2.1).bind fun _ h2 =>
    Config.replace_good m n hc h1 h2

theorem applyStep_good (n : Nat) (tm : TM) {c : Config} {prev : List Rule} {ind : Option Rule} {s : ProofStep}
    (hc : c.Plain) (hp : ∀ r ∈ prev, r.Plain) (hi : ∀ r, ind = some r → r.Plain) (hs : s.Plain) :
    Good Config.Plain (applyStep m n tm c prev ind s) := by
  cases s with
  | tmSteps k => exact Config.stepN_good m tm k hc
  | rule id σ =>
    simp only [applyStep]
    split
    · trivial
    · next r e => exact tryApply_good m n hc (hp r (List.mem_of_getElem? e)) hs
  | induct σ =>
    simp only [applyStep]
    split
    · trivial
    · next r =>
      split
      · trivial
      · exact tryApply_good m n hc (hi r rfl) hs
  | admit => exact hc

theorem validateProof_good (n : Nat) (tm : TM) {prev : List Rule} {ind : Option Rule} {final : Config}
    (hp : ∀ r ∈ prev, r.Plain) (hi : ∀ r, ind = some r → r.Plain) (hf : final.Plain) :
    ∀ l {c : Config}, (∀ s ∈ l, s.Plain) → c.Plain → Good (fun _ => True) (validateProof m n tm prev ind final l c)
  | [], c, _, hc => by
    refine (Config.equivalent_good m n hc hf).bind fun b _ => ?_
    cases b <;> trivial
  | s :: l, c, hl, hc => by
    have key : Good (fun _ => True)
        (applyStep m n tm c prev ind s >>= fun c => validateProof m n tm prev ind final l c) :=
      (applyStep_good m n tm hc hp hi (hl s (by simp))).bind fun c hc =>
        validateProof_good n tm hp hi hf l (fun s hs => hl s (by simp [hs])) hc
    cases s with
    | admit => trivial
    | tmSteps k => exact key
    | rule id σ => exact key
    | induct σ => exact key

theorem validateRule_good (n : Nat) (tm : TM) {prev : List Rule} {r : Rule} (hp : ∀ r ∈ prev, r.Plain) (hr : r.Plain) :
    Good (fun _ => True) (validateRule m n tm r prev) := by
  obtain ⟨h1, h2, h3⟩ := hr
  have hr : r.Plain := ⟨h1, h2, h3⟩
  unfold validateRule
  cases hpf : r.proof with
  | simple p =>
    rw [hpf] at h3
    exact validateProof_good m n tm hp (by rintro _ ⟨⟩) h2 p h3 h1
  | «inductive» p q =>
    rw [hpf] at h3
    have s0 : Subst.Plain [(inductionVar, .ofNat 0)] := by intro p hp; rw [List.mem_singleton.1 hp]; trivial
    have s1 : Subst.Plain [(inductionVar, .varPlus inductionVar 1)] := by
      intro p hp; rw [List.mem_singleton.1 hp]; trivial
    exact (Config.subst_good m s0 h1).bind fun _ g1 => (Config.subst_good m s0 h2).bind fun _ g2 =>
      (validateProof_good m n tm hp (by rintro _ ⟨⟩) g2 p h3.1 g1).bind fun _ _ =>
      (Config.subst_good m s1 h1).bind fun _ g1 => (Config.subst_good m s1 h2).bind fun _ g2 =>
      validateProof_good m n tm hp (by rintro _ ⟨⟩; exact hr) g2 q h3.2 g1

theorem validateRules_good (n : Nat) (tm : TM) : ∀ (l : List Rule) {prev : List Rule}, (∀ r ∈ prev, r.Plain) →
    (∀ r ∈ l, r.Plain) → Good (fun _ => True) (validateRules m n tm prev l)
  | [], _, _, _ => trivial
  | r :: l, prev, hp, hl => by
    refine (validateRule_good m n tm hp (hl r (by simp))).bind fun _ _ =>
      validateRules_good n tm l ?_ (fun r hr => hl r (by simp [hr]))
    intro q hq
    rcases List.mem_append.1 hq with hq | hq
    · exact hp q hq
    · rw [List.mem_singleton.1 hq]; exact hl r (by simp)

end

end Model.Validator
