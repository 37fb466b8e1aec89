import Verif.Lemmas.Machines

/-!
# `sim_limited` over a plain machine, in terms of absolute positions
-/

namespace Spec

/-- The tape `tape` with the cells from `b` on replaced by `seg`. -/
def patch (tape : Int → Nat) (b : Int) (seg : List Nat) (x : Int) : Nat :=
  if b ≤ x then (seg[(x - b).toNat]?).getD (tape x) else tape x

end Spec

namespace Model
open Spec

theorem patch_get (tape : Int → Nat) (b : Int) (A B : List Nat) (x : Nat) :
    patch tape b (A ++ x :: B) (b + A.length) = x := by
  unfold patch
  rw [if_pos (by omega)]
  have : (b + (A.length : Int) - b).toNat = A.length := by omega
  rw [this]; simp

theorem patch_set (tape : Int → Nat) (b : Int) (A B : List Nat) (x y : Nat) :
    Function.update (patch tape b (A ++ x :: B)) (b + A.length) y = patch tape b (A ++ y :: B) := by
  funext z
  rw [Function.update_apply]
  split
  · next h => rw [h, patch_get]
  · next h =>
    unfold patch
    split
    · next hb =>
      congr 1
      have hne : (z - b).toNat ≠ A.length := by omega
      rcases Nat.lt_or_ge (z - b).toNat A.length with h1 | h1
      · rw [List.getElem?_append_left h1, List.getElem?_append_left h1]
      · rw [List.getElem?_append_right h1, List.getElem?_append_right h1]
        obtain ⟨k, hk⟩ : ∃ k, (z - b).toNat - A.length = k + 1 := ⟨(z - b).toNat - A.length - 1, by omega⟩
        rw [hk]; rfl
    · rfl

/-- loop invariant: the local variables describe the machine exactly -/
structure AbsInv (T : Table) (tape : Int → Nat) (b : Int) (cfg : Config) (len : Nat)
    (s : LimLoop Nat (Option Nat)) : Prop where
  slen : s.tape.length = len
  lo : 0 ≤ s.pos
  hi : s.pos < s.tape.length
  eq : run T s.steps cfg = { state := s.st, pos := b + s.pos, tape := patch tape b s.tape }
  live : s.st ≠ none
  steps : s.steps = s.loops
  inside : ∀ m, m < s.steps → b ≤ (run T m cfg).pos ∧ (run T m cfg).pos < b + len

/-- the result is exact -/
structure AbsSpec (T : Table) (tape : Int → Nat) (b : Int) (cfg : Config) (len maxLoops : Nat)
    (t : Trans (List Nat) (Option Nat)) : Prop where
  slen : t.sym.length = len
  safe : t.cond ≠ .raised
  state : (run T t.steps cfg).state = t.st
  tape : (run T t.steps cfg).tape = patch tape b t.sym
  pos : 0 < t.steps
  live : ∀ m, m < t.steps → (run T m cfg).state ≠ none
  halted : (t.st = none ∧ t.cond ≠ .gaveUp) ↔ (t.cond = .halt ∨ t.cond = .undefined)
  out : t.cond = .running →
    (run T t.steps cfg).pos = (match t.dir with | .R => b + len | .L => b - 1)
  bound : t.steps ≤ maxLoops + 1
  gave : t.cond = .gaveUp → t.steps = maxLoops + 1
  inside : ∀ m, m < t.steps → b ≤ (run T m cfg).pos ∧ (run T m cfg).pos < b + len

theorem absIter {T : Table} {tape : Int → Nat} {b : Int} {cfg : Config} {len : Nat} (maxLoops : Nat)
    (s : LimLoop Nat (Option Nat)) (I : AbsInv T tape b cfg len s) (hl : s.loops ≤ maxLoops)
    (hold : ∀ st d p tp, s.old = some (st, d, p, tp) → st ≠ none) :
    match limIter (simple T) maxLoops s with
    | .inl s' => AbsInv T tape b cfg len s' ∧ s'.loops = s.loops + 1 ∧ s'.loops ≤ maxLoops ∧
        ∀ st d p tp, s'.old = some (st, d, p, tp) → st ≠ none
    | .inr t => AbsSpec T tape b cfg len maxLoops t := by
  obtain ⟨A, x, B, hsp, hp⟩ := split_at I.lo I.hi
  obtain ⟨st, d, pos, tp, steps, loops, seen, old, nextSave⟩ := s
  simp only at hsp hp hold
  subst hsp; subst hp
  have hlen : (A ++ x :: B).length = len := I.slen
  have heq := I.eq
  have hsl : steps = loops := I.steps
  subst hsl
  obtain ⟨q, rfl⟩ := Option.ne_none_iff_exists'.1 I.live
  simp only at heq hl
  have hq : (run T steps cfg).state = some q := by rw [heq]
  have hread : (run T steps cfg).tape (run T steps cfg).pos = x := by rw [heq]; exact patch_get _ _ _ _ _
  have hstep : run T (steps + 1) cfg = { state := (T q x).next, pos := b + A.length + (T q x).dir.delta
                                         tape := patch tape b (A ++ (T q x).write :: B) } := by
    rw [run_succ', step_eq hq, hread, heq]
    simp only [patch_set]
  have hlive : ∀ m, m < steps + 1 → (run T m cfg).state ≠ none := fun m hm =>
    run_some_mono (Nat.le_of_lt_succ hm) (by rw [hq]; simp)
  have hlen' : ∀ y, (A ++ y :: B).length = len := fun y => by rw [← hlen]; simp
  have hins : ∀ m, m < steps + 1 → b ≤ (run T m cfg).pos ∧ (run T m cfg).pos < b + len := by
    intro m hm
    rcases Nat.lt_succ_iff_lt_or_eq.1 hm with hm | rfl
    · exact I.inside m hm
    · rw [heq]
      have : (A ++ x :: B).length = A.length + B.length + 1 := by simp; omega
      simp only; omega
  -- the transition
  obtain ⟨t, ht⟩ : ∃ t, (simple T).trans x (some q) d = t := ⟨_, rfl⟩
  have htf : t.sym = (T q x).write ∧ t.st = (T q x).next ∧ t.dir = (T q x).dir ∧ t.steps = 1 ∧
      (t.cond = .running ∧ t.st ≠ none ∨ (t.cond = .halt ∨ t.cond = .undefined) ∧ t.st = none) := by
    subst ht
    simp only [simple]
    cases T q x <;> simp [Instr.write, Instr.next, Instr.dir]
  obtain ⟨f1, f2, f3, f4, f5⟩ := htf
  rw [← f1, ← f2, ← f3] at hstep
  have hret : ∀ (c : Cond) (cell), c ≠ .raised →
      ((t.st = none ∧ c ≠ .gaveUp) ↔ (c = .halt ∨ c = .undefined)) →
      (c = .running → b + A.length + t.dir.delta = (match t.dir with | .R => b + len | .L => b - 1)) →
      (c = .gaveUp → steps + 1 = maxLoops + 1) →
      AbsSpec T tape b cfg len maxLoops
        { cond := c, sym := A ++ t.sym :: B, st := t.st, dir := t.dir, steps := steps + t.steps
          seen := mergeSeen seen steps t.seen, cell := cell } := by
    intro c cell h1 h2 h3 h4
    rw [f4]
    refine ⟨hlen' _, h1, by rw [hstep], by rw [hstep], by simp, hlive, h2, ?_, by simp only; omega, h4, hins⟩
    intro hc
    rw [hstep]
    exact h3 hc
  unfold limIter
  simp only [get_split, set_split]
  rw [ht]
  have hr : t.cond ≠ .raised := by rcases f5 with ⟨h, -⟩ | ⟨h | h, -⟩ <;> rw [h] <;> simp
  rw [if_neg hr]
  by_cases ho : old = some (t.st, t.dir, (A.length : Int) + t.dir.delta, A ++ t.sym :: B)
  · rw [if_pos ho]
    have := hold _ _ _ _ ho
    exact hret _ _ (by simp) (by simp [this]) (by simp) (by simp)
  rw [if_neg ho]
  by_cases hm : steps + 1 > maxLoops
  · rw [if_pos hm]
    exact hret _ _ (by simp) (by simp) (by simp) (fun _ => by omega)
  rw [if_neg hm]
  by_cases hc : t.cond = .running
  · rw [if_neg (by simpa using hc)]
    have hst : t.st ≠ none := by
      rcases f5 with ⟨-, h⟩ | ⟨h | h, -⟩
      · exact h
      · rw [hc] at h; cases h
      · rw [hc] at h; cases h
    by_cases hin : 0 ≤ (A.length : Int) + t.dir.delta ∧
          (A.length : Int) + t.dir.delta < (A ++ t.sym :: B).length
    · rw [if_neg (not_not_intro hin)]
      refine ⟨⟨hlen' _, hin.1, hin.2, ?_, hst, by rw [f4], by rw [f4]; exact hins⟩, rfl, Nat.le_of_not_lt hm, ?_⟩
      · rw [f4, hstep]; simp only [Int.add_assoc]
      · intro st' d' p' tp' h
        simp only at h
        split at h
        · simp only [Option.some.injEq, Prod.mk.injEq] at h
          rw [← h.1]; exact hst
        · exact hold _ _ _ _ h
    · rw [if_pos hin]
      refine hret _ _ (by simp) (by simp [hst]) ?_ (by simp)
      intro _
      have : (A ++ t.sym :: B).length = A.length + B.length + 1 := by simp; omega
      have h2 := hlen' t.sym
      cases hd : t.dir
      · simp only [hd, Dir.delta] at hin ⊢; omega
      · simp only [hd, Dir.delta] at hin ⊢; omega
  · rw [if_pos hc]
    have hh : (t.cond = .halt ∨ t.cond = .undefined) ∧ t.st = none := by
      rcases f5 with ⟨h, -⟩ | h
      · exact absurd h hc
      · exact h
    refine hret _ _ hr ?_ (fun h => absurd h hc) ?_
    · constructor
      · exact fun _ => hh.1
      · intro _
        refine ⟨hh.2, ?_⟩
        rcases hh.1 with h | h <;> rw [h] <;> simp
    · intro h; rcases hh.1 with h' | h' <;> rw [h'] at h <;> cases h

theorem absLoop {T : Table} {tape : Int → Nat} {b : Int} {cfg : Config} {len : Nat} (maxLoops k : Nat)
    (s : LimLoop Nat (Option Nat)) (I : AbsInv T tape b cfg len s)
    (hk : s.loops + k = maxLoops + 1) (hl : s.loops ≤ maxLoops)
    (hold : ∀ st d p tp, s.old = some (st, d, p, tp) → st ≠ none) :
    AbsSpec T tape b cfg len maxLoops (limLoop (simple T) maxLoops k s) := by
  induction k generalizing s with
  | zero => omega
  | succ k ih =>
    have := absIter maxLoops s I hl hold
    unfold limLoop
    split
    · next s' h =>
      rw [h] at this
      simp only at this
      obtain ⟨h1, h2, h3, h4⟩ := this
      exact ih s' h1 (by omega) h3 h4
    · next t h => rw [h] at this; exact this

theorem abs_spec (T : Table) (tape : Int → Nat) (b : Int) (seg : List Nat) (q : Nat) (pos : Int) (d : Dir)
    (maxLoops : Nat) (h0 : 0 ≤ pos) (h1 : pos < seg.length) :
    AbsSpec T tape b { state := some q, pos := b + pos, tape := patch tape b seg } seg.length maxLoops
      (simLimited (simple T) (some q) seg pos d maxLoops) := by
  unfold simLimited
  apply absLoop
  · exact ⟨rfl, h0, h1, rfl, by simp, rfl, fun m hm => absurd hm (Nat.not_lt_zero m)⟩
  · simp
  · exact Nat.zero_le _
  · intro _ _ _ _ h; cases h

/-- the window picture of the same configuration -/
theorem patch_represents (tape : Int → Nat) (b : Int) (seg : List Nat) (q : Nat) (pos : Int) (d : Dir)
    (h0 : 0 ≤ pos) (h1 : pos < seg.length) :
    Represents (window seg pos d (some q) (fun i => tape (b - 1 - i)) (fun i => tape (b + seg.length + i)))
      { state := some q, pos := b + pos, tape := patch tape b seg } := by
  obtain ⟨cut, hcut, hle, hpos⟩ : ∃ cut : Nat, cut = (match d with | .R => pos | .L => pos + 1).toNat ∧
      cut ≤ seg.length ∧ b + pos = (match d with | .R => b + cut | .L => b + cut - 1) := by
    refine ⟨_, rfl, ?_, ?_⟩ <;> cases d <;> simp only <;> omega
  refine ⟨b + cut, ?_, rfl, by simp, ?_⟩
  · rw [halves_iff _ _ _ (seg.take cut) (seg.drop cut) (fun i => tape (b - 1 - i))
      (fun i => tape (b + seg.length + i)) (by subst hcut; cases d <;> rfl) (by subst hcut; cases d <;> rfl)]
    have hl : (seg.take cut).length = cut := by rw [List.length_take]; omega
    simp only [hl, List.take_append_drop]
    refine ⟨fun i => ?_, fun i hi => ?_, fun i => ?_⟩
    · unfold patch
      rw [if_neg (by omega)]
      congr 1; omega
    · unfold patch
      rw [if_pos (by omega)]
      have e : (b + (cut : Int) - cut + i - b).toNat = i := by omega
      rw [e, List.getElem?_eq_getElem hi]; rfl
    · unfold patch
      rw [if_pos (by omega)]
      have e : (b + (cut : Int) - cut + seg.length + i - b).toNat = seg.length + i := by omega
      rw [e, List.getElem?_eq_none (by omega)]
      show _ = tape _
      congr 1; omega
  · exact hpos

end Model
