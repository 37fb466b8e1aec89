import Verif.Lemmas.TM
import Verif.Model.Machine
import Mathlib.Tactic.Ring

/-! Runs with the tape as two lists, which the kernel can evaluate quickly. -/

namespace Props
open Spec Model

/-- a configuration: state, cells to the left (nearest first), cell under the head, cells to the right -/
structure Zip where
  st : Option Nat
  left : List Nat
  head : Nat
  right : List Nat

/-- one step -/
def Zip.step (T : Table) (z : Zip) : Zip :=
  match z.st with
  | none => z
  | some q =>
    let i := T q z.head
    match i.dir with
    | .L => ⟨i.next, z.left.tail, z.left.headD 0, i.write :: z.right⟩
    | .R => ⟨i.next, i.write :: z.left, z.right.headD 0, z.right.tail⟩

/-- `n` steps -/
def Zip.run (T : Table) : Nat → Zip → Zip
  | 0, z => z
  | n + 1, z => Zip.run T n (z.step T)

/-- the configuration a `Zip` stands for -/
def Zip.Is (z : Zip) (c : Config) : Prop :=
  c.state = z.st ∧ c.tape c.pos = z.head ∧ (∀ i : Nat, c.tape (c.pos - 1 - i) = z.left.getD i 0) ∧
    ∀ i : Nat, c.tape (c.pos + 1 + i) = z.right.getD i 0

theorem Zip.step_is {T : Table} {z : Zip} {c : Config} (h : z.Is c) : (z.step T).Is (Spec.step T c) := by
  obtain ⟨h1, h2, h3, h4⟩ := h
  unfold Zip.step Spec.step
  rw [h1]
  cases hz : z.st with
  | none => exact ⟨by simpa [hz] using h1, h2, h3, h4⟩
  | some q =>
    simp only [h2]
    cases hd : (T q z.head).dir with
    | L =>
      simp only [Dir.delta]
      refine ⟨rfl, ?_, fun i => ?_, fun i => ?_⟩ <;> dsimp only
      · have := h3 0
        simp only [Nat.cast_zero, sub_zero] at this
        rw [Function.update_of_ne (by omega), show c.pos + -1 = c.pos - 1 by omega, this]
        cases z.left <;> rfl
      · have := h3 (i + 1)
        rw [Function.update_of_ne (by omega), show c.pos + -1 - 1 - (i : Int) = c.pos - 1 - ((i + 1 : Nat) : Int) by
          push_cast; omega, this]
        cases z.left <;> simp
      · cases i with
        | zero => simp
        | succ i =>
          rw [Function.update_of_ne (by omega), show c.pos + -1 + 1 + ((i + 1 : Nat) : Int) = c.pos + 1 + (i : Int) by
            push_cast; omega, h4 i]
          simp
    | R =>
      simp only [Dir.delta]
      refine ⟨rfl, ?_, fun i => ?_, fun i => ?_⟩ <;> dsimp only
      · have := h4 0
        simp only [Nat.cast_zero, add_zero] at this
        rw [Function.update_of_ne (by omega), this]
        cases z.right <;> rfl
      · cases i with
        | zero => simp
        | succ i =>
          rw [Function.update_of_ne (by omega), show c.pos + 1 - 1 - ((i + 1 : Nat) : Int) = c.pos - 1 - (i : Int) by
            push_cast; omega, h3 i]
          simp
      · have := h4 (i + 1)
        rw [Function.update_of_ne (by omega), show c.pos + 1 + 1 + (i : Int) = c.pos + 1 + ((i + 1 : Nat) : Int) by
          push_cast; omega, this]
        cases z.right <;> simp

theorem Zip.run_is {T : Table} (n : Nat) {z : Zip} {c : Config} (h : z.Is c) : (Zip.run T n z).Is (Spec.run T n c) := by
  induction n generalizing z c with
  | zero => exact h
  | succ n ih => exact ih (Zip.step_is h)

theorem init_is : Zip.Is ⟨some 0, [], 0, []⟩ init := ⟨rfl, rfl, fun i => by simp [init], fun i => by simp [init]⟩


/-! ### Long runs of `sim_limited` inside a segment -/

/-- the state of the loop of `sim_limited` over a simple machine, with the segment as two lists -/
structure ZLim where
  q : Nat
  dir : Dir
  left : List Nat
  head : Nat
  right : List Nat
  loops : Nat
  old : Option (Nat × Dir × List Nat × Nat × List Nat)
  nextSave : Nat

/-- the next state, if the machine goes on inside the segment and does not repeat -/
def ZLim.step (T : Table) (z : ZLim) : Option ZLim :=
  match T z.q z.head with
  | .go w d q' =>
    let next : Option (List Nat × Nat × List Nat) :=
      match d with
      | .L => match z.left with
        | x :: l => some (l, x, w :: z.right)
        | [] => none
      | .R => match z.right with
        | x :: r => some (w :: z.left, x, r)
        | [] => none
    match next with
    | none => none
    | some (l, h, r) =>
      if z.old = some (q', d, l, h, r) then none
      else if z.nextSave ≤ z.loops + 1 then some ⟨q', d, l, h, r, z.loops + 1, some (q', d, l, h, r), z.nextSave * 2⟩
      else some ⟨q', d, l, h, r, z.loops + 1, z.old, z.nextSave⟩
  | _ => none

/-- `n` steps -/
def ZLim.run (T : Table) : Nat → ZLim → Option ZLim
  | 0, z => some z
  | n + 1, z => match z.step T with
    | none => none
    | some z' => ZLim.run T n z'

/-- a saved configuration -/
def zold (x : Nat × Dir × List Nat × Nat × List Nat) : Option Nat × Dir × Int × List Nat :=
  (some x.1, x.2.1, (x.2.2.1.length : Int), x.2.2.1.reverse ++ x.2.2.2.1 :: x.2.2.2.2)

theorem zold_inj {x y} (h : zold x = zold y) : x = y := by
  obtain ⟨q, d, l, a, r⟩ := x
  obtain ⟨q', d', l', a', r'⟩ := y
  simp only [zold, Prod.mk.injEq, Option.some.injEq] at h
  obtain ⟨rfl, rfl, hl, ht⟩ := h
  have := List.append_inj ht (by simp; omega)
  simp only [List.reverse_inj, List.cons.injEq] at this
  obtain ⟨rfl, rfl, rfl⟩ := this
  rfl

/-- the loop state a `ZLim` stands for -/
def ZLim.Is (z : ZLim) (s : LimLoop Nat (Option Nat)) : Prop :=
  s.st = some z.q ∧ s.dir = z.dir ∧ s.pos = z.left.length ∧ s.tape = z.left.reverse ++ z.head :: z.right ∧
    s.steps = z.loops ∧ s.loops = z.loops ∧ s.old = z.old.map zold ∧ s.nextSave = z.nextSave

theorem ZLim.step_is {T : Table} {z z' : ZLim} {s : LimLoop Nat (Option Nat)} (h : z.Is s) (hz : z.step T = some z') :
    z'.loops = z.loops + 1 ∧ ∀ m, if z.loops < m then ∃ s', limIter (simple T) m s = .inl s' ∧ z'.Is s'
      else ∃ t, limIter (simple T) m s = .inr t ∧ t.cond = .gaveUp ∧ t.sym = z'.left.reverse ++ z'.head :: z'.right ∧
        t.st = some z'.q ∧ t.dir = z'.dir ∧ t.steps = z'.loops ∧ t.cell = none := by
  obtain ⟨h1, h2, h3, h4, h5, h6, h7, h8⟩ := h
  have hget : Py.get s.tape s.pos = some z.head := by
    unfold Py.get
    rw [h3, Py.pyIdx_of_range (by omega) (by rw [h4]; simp), h4]
    simp
  have hset : ∀ w, Py.set s.tape s.pos w = some (z.left.reverse ++ w :: z.right) := by
    intro w
    unfold Py.set
    rw [h3, Py.pyIdx_of_range (by omega) (by rw [h4]; simp), h4]
    simp
  cases hT : T z.q z.head with
  | undef => simp [ZLim.step, hT] at hz
  | halt w d => simp [ZLim.step, hT] at hz
  | go w d q' =>
    have htr : (simple T).trans z.head (some z.q) z.dir
        = { cond := .running, sym := w, st := some q', dir := d, steps := 1, seen := [(z.q, 0)], cell := none } := by
      simp [simple, hT]
    -- the new segment
    obtain ⟨l, x, r, hn, hseg, hpos⟩ : ∃ l x r, (z.old ≠ some (q', d, l, x, r) ∧
        z' = if z.nextSave ≤ z.loops + 1 then ⟨q', d, l, x, r, z.loops + 1, some (q', d, l, x, r), z.nextSave * 2⟩
          else ⟨q', d, l, x, r, z.loops + 1, z.old, z.nextSave⟩) ∧ z.left.reverse ++ w :: z.right = l.reverse ++ x :: r ∧
        (z.left.length : Int) + d.delta = l.length := by
      unfold ZLim.step at hz
      simp only [hT] at hz
      cases d with
      | L =>
        cases hl : z.left with
        | nil => simp [hl] at hz
        | cons x l =>
          simp only [hl] at hz
          refine ⟨l, x, w :: z.right, ?_, by simp, by simp [Dir.delta]⟩
          split at hz
          · cases hz
          · rename_i hne
            refine ⟨hne, ?_⟩
            split at hz <;> rename_i hs <;> simp only [Option.some.injEq] at hz <;> simp [hs, ← hz]
      | R =>
        cases hr : z.right with
        | nil => simp [hr] at hz
        | cons x r =>
          simp only [hr] at hz
          refine ⟨w :: z.left, x, r, ?_, by simp, by simp [Dir.delta]⟩
          split at hz
          · cases hz
          · rename_i hne
            refine ⟨hne, ?_⟩
            split at hz <;> rename_i hs <;> simp only [Option.some.injEq] at hz <;> simp [hs, ← hz]
    obtain ⟨hne, rfl⟩ := hn
    have hold : ¬ s.old = some (some q', d, s.pos + d.delta, z.left.reverse ++ w :: z.right) := by
      intro hh
      rw [h7, Option.map_eq_some_iff] at hh
      obtain ⟨y, hy, hy2⟩ := hh
      apply hne
      rw [hy]
      congr 1
      apply zold_inj
      rw [hy2, h3, hpos, hseg]
      rfl
    refine ⟨by split <;> rfl, fun m => ?_⟩
    unfold limIter
    simp only [hget, h1, h2, htr, hset]
    have hr : ¬ (Cond.running = Cond.raised) := by decide
    simp only [if_neg hr, if_neg hold]
    by_cases hm : z.loops < m
    · rw [if_pos hm, if_neg (by omega), if_neg (by simp), if_neg (by
        rw [h3, hpos, hseg, not_not]; simp)]
      refine ⟨_, rfl, ?_⟩
      by_cases hs : z.nextSave ≤ z.loops + 1
      · simp only [if_pos hs, ZLim.Is]
        refine ⟨trivial, trivial, by rw [h3, hpos], hseg, by omega, by omega, ?_, ?_⟩
        · rw [h6, h8]; simp [hs, h3, hpos, hseg, zold]
        · rw [h6, h8]; simp [hs]
      · simp only [if_neg hs, ZLim.Is]
        refine ⟨trivial, trivial, by rw [h3, hpos], hseg, by omega, by omega, ?_, ?_⟩
        · rw [h6, h8]; simp [hs, h7]
        · rw [h6, h8]; simp [hs]
    · rw [if_neg hm, if_pos (by omega)]
      refine ⟨_, rfl, rfl, ?_⟩
      split <;> exact ⟨hseg, rfl, rfl, by simp; omega, rfl⟩

/-- if the machine goes on for `n + 1` steps, `sim_limited` with limit `n` more gives up -/
theorem ZLim.run_is {T : Table} {m : Nat} (n : Nat) {z z' : ZLim} {s : LimLoop Nat (Option Nat)} (h : z.Is s)
    (hm : z.loops + n = m) (hz : ZLim.run T (n + 1) z = some z') (k : Nat) (hk : n < k) :
    let t := limLoop (simple T) m k s
    t.cond = .gaveUp ∧ t.sym = z'.left.reverse ++ z'.head :: z'.right ∧ t.st = some z'.q ∧ t.dir = z'.dir ∧
      t.steps = z'.loops ∧ t.cell = none := by
  induction n generalizing z s k with
  | zero =>
    obtain ⟨k, rfl⟩ : ∃ j, k = j + 1 := ⟨k - 1, by omega⟩
    cases hs : z.step T with
    | none => simp [ZLim.run, hs] at hz
    | some z1 =>
      simp only [ZLim.run, hs, Option.some.injEq] at hz
      subst hz
      have := (ZLim.step_is h hs).2 m
      rw [if_neg (by omega)] at this
      obtain ⟨t, ht, h1⟩ := this
      simpa only [limLoop, ht] using h1
  | succ n ih =>
    obtain ⟨k, rfl⟩ : ∃ j, k = j + 1 := ⟨k - 1, by omega⟩
    cases hs : z.step T with
    | none => unfold ZLim.run at hz; simp [hs] at hz
    | some z1 =>
      unfold ZLim.run at hz
      simp only [hs] at hz
      obtain ⟨h1, h2⟩ := ZLim.step_is h hs
      have := h2 m
      rw [if_pos (by omega)] at this
      obtain ⟨s', ht, h3⟩ := this
      have := ih h3 (by omega) hz k (by omega)
      simpa only [limLoop, ht] using this

end Props
