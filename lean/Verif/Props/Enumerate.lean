import Verif.Lemmas.Enumerate2
import Verif.Props.Formats

/-!
# C36, C37: enumeration runs
-/

namespace Props
open Spec (Instr Dir Table Explores)
open Model Model.IO Model.Status

/-! ## The two work queues keep their jobs -/

theorem lifo_lawful (α : Type) : LawfulQueue (lifoImpl α) LIFO.queue where
  new := rfl
  pop_none s h := by
    simp only [lifoImpl, LIFO.popJob, LIFO.saveStats] at h ⊢
    split at h
    · rename_i hl
      exact ⟨List.getLast?_eq_none_iff.1 hl, List.getLast?_eq_none_iff.1 hl⟩
    · simp at h
  pop_some s x h := by
    simp only [lifoImpl, LIFO.popJob, LIFO.saveStats] at h ⊢
    split at h
    · simp at h
    · rename_i y hl
      simp only [Option.some.injEq] at h
      subst h
      simp only
      obtain ⟨ys, hy⟩ := List.getLast?_eq_some_iff.1 hl
      rw [hy, List.dropLast_concat]
      exact List.perm_append_comm
  push s x := by
    simp only [lifoImpl, LIFO.pushJob, LIFO.saveStats]
    exact List.perm_append_comm
  pushAll s xs := by
    simp only [lifoImpl, LIFO.pushJobs, LIFO.saveStats]
    exact List.perm_append_comm

theorem fifo_lawful (α : Type) : LawfulQueue (fifoImpl α) FIFO.queue where
  new := rfl
  pop_none s h := by
    obtain ⟨q⟩ := s
    cases q with
    | nil => exact ⟨rfl, rfl⟩
    | cons x q => simp [fifoImpl, FIFO.popJob] at h
  pop_some s x h := by
    obtain ⟨q⟩ := s
    cases q with
    | nil => simp [fifoImpl, FIFO.popJob] at h
    | cons y q =>
      simp only [fifoImpl, FIFO.popJob, Option.some.injEq] at h
      subst h
      exact List.Perm.refl _
  push s x := List.perm_append_comm
  pushAll s xs := List.perm_append_comm

section
variable {σ : Type} {I : QueueImpl σ Rec} {contents : σ → List Rec}

/-! ## C36 -/

/-- **C36.** Whatever the work queue (`I`), the order of the children (`shuf`), the results of the simulations (`decide`)
and the limit (`numEnum`): if the run ends, then with `ran` the records whose machine was run and `drained` those that
were taken from the queue at the end,

* what is written are the records `ran`, with the halting cell filled in if the machine halted, and the records
  `drained`, unchanged, each once;
* the machines run and drained together are the initial ones and the children of those run, each once;
* the queue is empty; nothing is drained unless the limit was reached; the number of machines is right. -/
theorem C36_conservation (hI : LawfulQueue I contents) (shuf : Nat → List Rec → List Rec) (hs : ∀ i l, (shuf i l).Perm l)
    (decide : Nat → TMEnum → BBStatus) (numEnum fuel : Nat) (inits : List Rec) (hf : ∀ r ∈ inits, r.status = .empty)
    (s : EState σ) (h : enumMain I shuf decide numEnum fuel inits (EState.init I.new) = .ok s) :
    ∃ ran drained : List Rec,
      s.out.Perm (ran.map Rec.written ++ drained) ∧
      (ran.map Rec.unrun ++ drained).Perm (inits ++ ran.flatMap Rec.kids) ∧
      (∀ r ∈ ran, r.Handled ∧ ∃ i, r.status = decide i r.tme) ∧
      (∀ r ∈ drained, r.status = .empty) ∧
      contents s.stack = [] ∧
      (drained = [] ∨ numEnum ≠ 0 ∧ numEnum ≤ s.tmNum) ∧
      s.tmNum = ran.length + drained.length := by
  obtain ⟨ran, dr, outs, h0, h1, h2, h3, h4, h5, h6, h7, h8, -⟩ := enumMain_spec hI hs numEnum fuel inits _ s h hf hI.new
  refine ⟨ran, dr, ?_, h3, h4, h7, h6, h8, ?_⟩
  · rw [h0]; simpa [EState.init] using h1
  · rw [h2]; simp [EState.init]

/-- **C36.** The statistics count the records written. -/
theorem C36_statistics (hI : LawfulQueue I contents) (shuf : Nat → List Rec → List Rec) (hs : ∀ i l, (shuf i l).Perm l)
    (decide : Nat → TMEnum → BBStatus) (numEnum fuel : Nat) (inits : List Rec) (hf : ∀ r ∈ inits, r.status = .empty)
    (s : EState σ) (h : enumMain I shuf decide numEnum fuel inits (EState.init I.new) = .ok s) :
    s.tmNum = s.out.length ∧
    s.numUnknown = s.out.countP (fun r => !r.status.halt.decided) ∧
    s.numHalt = s.out.countP (fun r => r.status.halt.decided && r.status.halt.halting) ∧
    s.numInfQuasiUnknown + s.numQuasihalt + s.numInfinite =
      s.out.countP (fun r => r.status.halt.decided && !r.status.halt.halting) := by
  obtain ⟨ran, dr, outs, h0, h1, h2, h3, h4, h5, h6, h7, h8, -⟩ := enumMain_spec hI hs numEnum fuel inits _ s h hf hI.new
  have hc := h5 (by constructor <;> simp [EState.init])
  refine ⟨hc.num, hc.unknown, ?_, ?_⟩
  · rw [hc.halt]
    congr 1
    funext r
    rw [Bool.eq_iff_iff, decide_eq_true_iff, Bool.and_eq_true]
    exact Iff.rfl
  · rw [hc.iqu, hc.quasi, hc.inf]
    induction s.out with
    | nil => rfl
    | cons r l ih =>
      simp only [List.countP_cons, ← ih]
      cases r.status.halt.decided <;> cases r.status.halt.halting <;> cases r.status.quasi.decided <;>
        cases r.status.quasi.quasihalting <;> simp <;> omega

/-- **C36.** The run ends without an exception, for sensible machines with at most 7 states and 2 to 7 symbols and a
simulator that reports halting at undefined cells only. -/
theorem C36_terminates (hI : LawfulQueue I contents) (shuf : Nat → List Rec → List Rec) (hs : ∀ i l, (shuf i l).Perm l)
    (decide : Nat → TMEnum → BBStatus)
    (hd : ∀ i e, (decide i e).halt.decided = true → (decide i e).halt.halting = true →
      (decide i e).halt.fromState < e.tm.nStates ∧ (decide i e).halt.fromSymbol < e.tm.nSyms ∧
        e.tm.table (decide i e).halt.fromState (decide i e).halt.fromSymbol = .undef)
    (numEnum : Nat) (inits : List Rec)
    (hg : ∀ r ∈ inits, r.status = .empty ∧ r.tme.tm.WF ∧ r.tme.tm.Moves ∧ r.tme.tm.nStates ≤ 7 ∧ 2 ≤ r.tme.tm.nSyms ∧ r.tme.tm.nSyms ≤ 7) :
    ∃ fuel s, enumMain I shuf decide numEnum fuel inits (EState.init I.new) = .ok s := by
  refine ⟨totalWeight inits + 1, ?_⟩
  refine enumMain_total hI hs hd numEnum _ inits _ (fun r hr => ?_) (fun r hr => (hg r hr).1) hI.new
  obtain ⟨-, h1, h2, h3, h4, h5⟩ := hg r hr
  refine ⟨⟨h1, h2, h3, h5, h4⟩, ?_⟩
  have : weight r ≤ totalWeight inits := by
    obtain ⟨l1, l2, rfl⟩ := List.append_of_mem hr
    rw [totalWeight_append, totalWeight_cons]
    omega
  omega

/-- **C36.** The children of a record are those of its machine (C33), and the record written has the halting cell set to
`1RZ`; both are stored exactly. -/
theorem C36_kids (r : Rec) (hw : r.tme.tm.WF) (hm : r.tme.tm.Moves) (hn : r.tme.tm.nStates ≤ 7) (hk2 : 2 ≤ r.tme.tm.nSyms)
    (hk : r.tme.tm.nSyms ≤ 7) (hh : r.status.halt.decided = true ∧ r.status.halt.halting = true)
    (hq : r.status.halt.fromState < r.tme.tm.nStates) (ha : r.status.halt.fromSymbol < r.tme.tm.nSyms) :
    some (r.kids.map (·.tme)) = r.tme.enumChildren r.status.halt.fromState r.status.halt.fromSymbol ∧
    (∀ k ∈ r.kids, readTM k.proto = some k.tme.tm) ∧
    r.written.tme = { r.tme with tm := r.tme.tm.fill r.status.halt.fromState r.status.halt.fromSymbol (.halt 1 .R) } ∧
    readTM r.written.proto = some r.written.tme.tm ∧ r.written.status = r.status := by
  have hg : r.tme.Good := ⟨hw, hm, hn, hk, hk2⟩
  have hh' : r.Halted := hh
  obtain ⟨es, kids, h1, h2, h3, -, h5, -⟩ := expand_good hg hq ha
  obtain ⟨r', s1, s2, s3, s4⟩ := standardize_good hg hq ha
  have e1 : r.kids = kids := by simp [Rec.kids, hh', h2]
  have e2 : r.written = r' := by simp [Rec.written, hh', s1]
  rw [e1, e2, h1, h3]
  refine ⟨rfl, fun k hkk => ?_, s4, s2, s3⟩
  obtain ⟨g1, g2⟩ := h5 k hkk
  obtain ⟨p, p1, p2, -⟩ := newRec_good g1
  rw [p1] at g2
  rw [← Option.some.inj g2]
  exact p2

end

/-- a machine that is stuck in state `q` at symbol `a` -/
def stuckStatus (q a : Nat) : BBStatus :=
  { BBStatus.empty with halt := { BBStatus.empty.halt with decided := true, halting := true, fromState := q, fromSymbol := a } }

/-- a toy simulator: it finds the first undefined cell of a two by two table -/
def toySim (e : TMEnum) : BBStatus :=
  if e.tm.table 0 0 = .undef then stuckStatus 0 0
  else if e.tm.table 1 0 = .undef then stuckStatus 1 0
  else BBStatus.empty

/-- how a run ended -/
def _root_.Model.IO.Res.get {α : Type} : Res α → Option α
  | .ok x => some x
  | _ => none

/-- the run for two states and two symbols: the blank machine, 4 children, 8 children of each (none of them runs on) -/
example : (((blankTMEnum 2 2 false false).bind newRec).bind fun r =>
    (enumMain (lifoImpl Rec) (fun _ l => l) (fun _ => toySim) 0 100 [r] (EState.init LIFO.new)).get.map fun s =>
      (s.tmNum, s.numHalt, s.out.length, s.stack.queue.length)) = some (37, 5, 37, 0) := by decide +kernel

/-- the same with a limit of 3 -/
example : (((blankTMEnum 2 2 false false).bind newRec).bind fun r =>
    (enumMain (fifoImpl Rec) (fun _ l => l.reverse) (fun _ => toySim) 3 100 [r] (EState.init FIFO.new)).get.map fun s =>
      (s.tmNum, s.numHalt, s.out.length, s.stack.queue.length)) = some (21, 3, 21, 0) := by decide +kernel

/-- a machine with 8 states -/
def eight : TMEnum := { tm := SM.ofTable (tbl [[.go 1 .R 7, .undef]]) 8 2, allowNoHalt := false }

/-- **C36, a limit of the code.** A machine with 8 states that uses the eighth state and halts makes the enumerator stop
with an exception: the record is packed although it does not fit (`standardize_halt_trans`). -/
theorem C36_eight_states (fuel : Nat) : (newRec eight).map (fun r =>
    enumMain (lifoImpl Rec) (fun _ l => l) (fun _ _ => stuckStatus 7 0) 0 (fuel + 1) [r] (EState.init LIFO.new)) = some .raised := by
  rfl

/-! ## C37 -/

section
variable {σ τ υ : Type} {I : QueueImpl σ Rec} {J : QueueImpl τ Rec} {K : QueueImpl υ Rec}
  {ci : σ → List Rec} {cj : τ → List Rec} {ck : υ → List Rec}

/-- **C37 (partial).** Stop an enumeration by a limit, read the machines that were not run back from the output and run the
enumeration from them, without a limit: replacing those machines by the second output gives the output of an
uninterrupted run, whatever the queues and the orders of the children.  Missing, because it is false (see the two witnesses
below): runs that allow machines without a halting transition, and restarting from the whole output. -/
theorem C37_resume_partial (hI : LawfulQueue I ci) (hJ : LawfulQueue J cj) (hK : LawfulQueue K ck)
    (sh1 sh2 sh3 : Nat → List Rec → List Rec) (hs1 : ∀ i l, (sh1 i l).Perm l) (hs2 : ∀ i l, (sh2 i l).Perm l)
    (hs3 : ∀ i l, (sh3 i l).Perm l) (d : TMEnum → BBStatus) (hd : ∀ e, HaltsUndefined (d e) e)
    (inits : List Rec) (hin : ∀ r ∈ inits, newRec r.tme = some r ∧ r.tme.Good ∧ r.tme.allowNoHalt = false)
    (numEnum f1 f2 f3 : Nat) (s1 : EState σ) (s2 : EState τ) (s3 : EState υ)
    (h1 : enumMain I sh1 (fun _ => d) numEnum f1 inits (EState.init I.new) = .ok s1) :
    ∃ done left : List Rec, s1.out.Perm (done ++ left) ∧ (∀ r ∈ left, r.status = .empty) ∧
      ∃ again, Py.mapO reload left = some again ∧
        (enumMain J sh2 (fun _ => d) 0 f2 again (EState.init J.new) = .ok s2 →
          enumMain K sh3 (fun _ => d) 0 f3 inits (EState.init K.new) = .ok s3 →
            s3.out.Perm (done ++ s2.out)) := by
  let P : Rec → Prop := fun r => newRec r.tme = some r ∧ r.tme.Good ∧ r.tme.allowNoHalt = false
  have hP : ∀ r, P r → ∀ k ∈ (r.ran (d r.tme)).kids, P k := by
    rintro r ⟨-, hg, hal⟩ k hk
    obtain ⟨-, -, h⟩ := kids_weight (r := r.ran (d r.tme)) hg (hd _)
    obtain ⟨g1, g2⟩ := h k hk
    exact ⟨g2, g1, by rw [kids_allow (r := r.ran (d r.tme)) hg (hd _) k hk]; exact hal⟩
  have hfr : ∀ r, P r → r.status = .empty := by
    rintro r ⟨h, hg, -⟩
    obtain ⟨p, p1, -⟩ := newRec_good hg
    rw [p1] at h
    rw [← Option.some.inj h]
  have hrel : ∀ r, P r → reload r = some r := by
    rintro r ⟨h, hg, hal⟩
    obtain ⟨p, p1, p2, p3⟩ := newRec_good hg
    rw [p1] at h
    have h := Option.some.inj h
    rw [← h]
    simp only [reload, p2, Option.map_some, p3, ← hal]
  obtain ⟨ran1, left, outs1, a0, a1, -, -, -, -, -, a7, -, a9⟩ :=
    enumMain_spec hI hs1 numEnum f1 inits _ s1 h1 (fun r hr => hfr r (hin r hr)) hI.new
  obtain ⟨a10, a11⟩ := a9 d (fun _ _ => rfl)
  have hleft : ∀ r ∈ left, P r := by
    intro r hr
    exact explores_inv (P := P) (fun x hx k hk => hP x hx k (by simpa using hk)) a11 (fun x hx => hin x (by simpa using hx)) r
      (by simpa using hr)
  refine ⟨ran1.map Rec.written, left, by rw [a0]; simpa [EState.init] using a1, a7, left, ?_, fun h2 h3 => ?_⟩
  · rw [mapO_eq_some (g := id) (fun r hr => hrel r (hleft r hr)), List.map_id]
  · obtain ⟨ran2, left2, outs2, b0, b1, -, -, -, -, -, -, b8, b9⟩ :=
      enumMain_spec hJ hs2 0 f2 left _ s2 h2 (fun r hr => hfr r (hleft r hr)) hJ.new
    obtain ⟨ran3, left3, outs3, c0, c1, -, -, -, -, -, -, c8, c9⟩ :=
      enumMain_spec hK hs3 0 f3 inits _ s3 h3 (fun r hr => hfr r (hin r hr)) hK.new
    obtain rfl : left2 = [] := b8.resolve_right (fun x => x.1 rfl)
    obtain rfl : left3 = [] := c8.resolve_right (fun x => x.1 rfl)
    obtain ⟨b10, b11⟩ := b9 d (fun _ _ => rfl)
    obtain ⟨c10, c11⟩ := c9 d (fun _ _ => rfl)
    have key := c11.unique (a11.trans b11)
    rw [Multiset.coe_add, Multiset.coe_eq_coe] at key
    have key2 := key.map (fun r => (r.ran (d r.tme)).written)
    rw [List.map_append] at key2
    have e : ∀ ran : List Rec, ran = (ran.map Rec.unrun).map (fun r => r.ran (d r.tme)) →
        (ran.map Rec.unrun).map (fun r => (r.ran (d r.tme)).written) = ran.map Rec.written := by
      intro ran hr
      conv_rhs => rw [hr]
      simp only [List.map_map]
      rfl
    rw [e _ a10, e _ b10, e _ c10] at key2
    rw [List.append_nil] at b1 c1
    have f2' : s2.out = outs2 := by rw [b0]; simp [EState.init]
    have f3' : s3.out = outs3 := by rw [c0]; simp [EState.init]
    rw [f2', f3']
    exact c1.trans (key2.trans (b1.symm.append_left _))

/-- the run with limit 3 is an instance: 3 machines were run, 18 were not -/
example : (((blankTMEnum 2 2 false false).bind newRec).bind fun r =>
    (enumMain (fifoImpl Rec) (fun _ l => l.reverse) (fun _ => toySim) 3 100 [r] (EState.init FIFO.new)).get.bind fun s =>
      (Py.mapO reload (s.out.drop 3)).bind fun again =>
        (enumMain (lifoImpl Rec) (fun _ l => l) (fun _ => toySim) 0 100 again (EState.init LIFO.new)).get.map fun s2 =>
          (s.out.length, again.length, s2.out.length)) = some (21, 18, 34) := by decide +kernel

end

/-- **C37.** A machine read from a file starts anew: it keeps its table, and whatever an earlier run found out about it is
cleared. -/
theorem C37_cleared (r r' : Rec) (h : reload r = some r') :
    r'.status = .empty ∧ r'.proto = r.proto ∧ readTM r.proto = some r'.tme.tm := by
  unfold reload at h
  cases hm : readTM r.proto with
  | none => rw [hm] at h; cases h
  | some m =>
    rw [hm] at h
    cases h
    exact ⟨rfl, rfl, rfl⟩

/-- **C37, violated.** The option that allows machines without a halting transition is lost in the file: the machine
`1RB1LB_1LA---`, in an enumeration with that option, has children if it is run at once, but none after it has been written
by a stopped run and read back. -/
theorem C37_option_lost :
    let e : TMEnum := { tm := SM.ofTable (tbl [[.go 1 .R 1, .go 1 .L 1], [.go 1 .L 0, .undef]]) 2 2, allowNoHalt := true }
    ((newRec e).map fun r => (r.ran (stuckStatus 1 1)).kids.length) = some 8 ∧
    (((newRec e).bind reload).map fun r => (r.ran (stuckStatus 1 1)).kids.length) = some 0 := by decide +kernel

/-- a toy simulator that also finds the halting transition -/
def toySim' (e : TMEnum) : BBStatus :=
  if e.tm.table 0 0 = .undef ∨ e.tm.table 0 0 = .halt 1 .R then stuckStatus 0 0
  else if e.tm.table 1 0 = .undef ∨ e.tm.table 1 0 = .halt 1 .R then stuckStatus 1 0
  else BBStatus.empty

/-- **C37, violated.** Restarting from the whole output of a run that was stopped after one machine writes machines twice:
the blank machine, which was run before the stop, is written with its halting cell filled in, halts again, and its children
are generated again.  The uninterrupted run writes no machine twice. -/
theorem C37_rerun :
    (((blankTMEnum 2 2 false false).bind newRec).bind fun r =>
      (enumMain (lifoImpl Rec) (fun _ l => l) (fun _ => toySim') 1 100 [r] (EState.init LIFO.new)).get.bind fun s =>
        (Py.mapO reload s.out).bind fun again =>
          (enumMain (lifoImpl Rec) (fun _ l => l) (fun _ => toySim') 0 100 again (EState.init LIFO.new)).get.map fun s2 =>
            (s.out.length, s2.out.length, decide (s2.out.map (·.tme.tm)).Nodup)) = some (5, 109, false) ∧
    (((blankTMEnum 2 2 false false).bind newRec).bind fun r =>
      (enumMain (lifoImpl Rec) (fun _ l => l) (fun _ => toySim') 0 100 [r] (EState.init LIFO.new)).get.map fun s =>
        (s.out.length, decide (s.out.map (·.tme.tm)).Nodup)) = some (37, true) := by decide +kernel

end Props
