import Verif.Spec.Enumerate
import Verif.Lemmas.Explore
import Verif.Lemmas.Enum
import Verif.Lemmas.Records

/-!
# The enumerator loops
-/

set_option linter.unusedSectionVars false

namespace Model.IO
open Model.Status (BBStatus)
open Spec (Explores)

theorem mapO_mem {α β : Type} {f : α → Option β} {l : List α} {r : List β} (h : Py.mapO f l = some r) :
    ∀ y ∈ r, ∃ x ∈ l, f x = some y := by
  induction l generalizing r with
  | nil => simp only [Py.mapO, Option.some.injEq] at h; subst h; simp
  | cons x xs ih =>
    simp only [Py.mapO] at h
    split at h
    · rename_i y ys h1 h2
      obtain rfl := Option.some.inj h
      intro z hz
      rcases List.mem_cons.1 hz with rfl | hz
      · exact ⟨x, by simp, h1⟩
      · obtain ⟨x', hx', e⟩ := ih h2 z hz
        exact ⟨x', by simp [hx'], e⟩
    · simp at h

theorem expand_unrun {r : Rec} {kids : List Rec} (h : expand r = some kids) : ∀ k ∈ kids, k.status = .empty := by
  unfold expand at h
  rw [Option.bind_eq_some_iff] at h
  obtain ⟨es, -, h⟩ := h
  intro k hk
  obtain ⟨e, -, he⟩ := mapO_mem h k hk
  unfold newRec at he
  rw [Option.map_eq_some_iff] at he
  obtain ⟨pm, -, rfl⟩ := he
  rfl

theorem kids_unrun (r : Rec) : ∀ k ∈ r.kids, k.status = .empty := by
  unfold Rec.kids
  split
  · cases h : expand r with
    | none => simp
    | some ks => simpa using expand_unrun h
  · simp

theorem standardize_status {r r' : Rec} (h : standardize r = some r') : r'.status = r.status := by
  unfold standardize at h
  rw [Option.bind_eq_some_iff] at h
  obtain ⟨e, -, h⟩ := h
  rw [Option.map_eq_some_iff] at h
  obtain ⟨b, -, rfl⟩ := h
  rfl

theorem written_status (r : Rec) : r.written.status = r.status := by
  unfold Rec.written
  split
  · cases h : standardize r with
    | none => simp
    | some r' => simpa using standardize_status h
  · rfl

theorem Rec.unrun_ran {r : Rec} (h : r.status = .empty) (x : BBStatus) : (r.ran x).unrun = r := by
  cases r; simp only [Rec.ran, Rec.unrun] at *; subst h; rfl

/-- the statistics are those of the records written -/
structure Counted {σ : Type} (s : EState σ) : Prop where
  num : s.tmNum = s.out.length
  halt : s.numHalt = s.out.countP fun r => decide r.Halted
  unknown : s.numUnknown = s.out.countP fun r => !r.status.halt.decided
  iqu : s.numInfQuasiUnknown = s.out.countP fun r => r.status.halt.decided && !r.status.halt.halting && !r.status.quasi.decided
  quasi : s.numQuasihalt = s.out.countP fun r =>
    r.status.halt.decided && !r.status.halt.halting && r.status.quasi.decided && r.status.quasi.quasihalting
  inf : s.numInfinite = s.out.countP fun r =>
    r.status.halt.decided && !r.status.halt.halting && r.status.quasi.decided && !r.status.quasi.quasihalting

section
variable {σ : Type} {I : QueueImpl σ Rec} {contents : σ → List Rec} {shuf : Nat → List Rec → List Rec}
  {decide : Nat → TMEnum → BBStatus}

theorem addResult_spec (hI : LawfulQueue I contents) (hs : ∀ i l, (shuf i l).Perm l) {s s' : EState σ} {r : Rec}
    (h : addResult I shuf s r = some s') :
    s'.out = s.out ++ [r.written] ∧ s'.tmNum = s.tmNum + 1 ∧ (contents s'.stack).Perm (r.kids ++ contents s.stack) ∧
      r.Handled ∧ (Counted s → Counted s') := by
  unfold addResult at h
  have hst := written_status r
  unfold Rec.kids Rec.written Rec.Handled at *
  by_cases h1 : r.status.halt.decided = true
  · by_cases h2 : r.status.halt.halting = true
    · have hh : r.Halted := ⟨h1, h2⟩
      simp only [h1, h2, not_true_eq_false, if_false, if_true] at h
      cases he : expand r with
      | none => simp [he] at h
      | some kids =>
        cases hd : standardize r with
        | none => simp [he, hd] at h
        | some r' =>
          have hst' := standardize_status hd
          simp only [he, hd, Option.some.injEq] at h
          subst h
          simp only [hh, if_true, Option.getD_some, Option.isSome_some, and_self, implies_true, true_and]
          refine ⟨?_, fun hc => ?_⟩
          · split
            · rename_i hk; subst hk; simp
            · exact (hI.pushAll _ _).trans ((hs _ _).append_right _)
          · constructor <;> simp [hc.num, hc.halt, hc.unknown, hc.iqu, hc.quasi, hc.inf, List.countP_append, Rec.Halted, hst', h1, h2]
    · have hh : ¬ r.Halted := fun x => h2 x.2
      simp only [h1, h2, not_true_eq_false, if_false] at h
      by_cases h3 : r.status.quasi.decided = true
      · by_cases h4 : r.status.quasi.quasihalting = true
        · simp only [h3, h4, Bool.false_eq_true, not_true_eq_false, if_false, if_true, Option.some.injEq] at h
          subst h
          simp only [hh, if_false, false_implies, true_and, List.nil_append, List.Perm.refl]
          intro hc
          constructor <;> simp [hc.num, hc.halt, hc.unknown, hc.iqu, hc.quasi, hc.inf, List.countP_append, Rec.Halted, h1, h2, h3, h4]
        · simp only [h3, h4, Bool.false_eq_true, not_true_eq_false, if_false, Option.some.injEq] at h
          subst h
          simp only [hh, if_false, false_implies, true_and, List.nil_append, List.Perm.refl]
          intro hc
          constructor <;> simp [hc.num, hc.halt, hc.unknown, hc.iqu, hc.quasi, hc.inf, List.countP_append, Rec.Halted, h1, h2, h3, h4]
      · simp only [h3, Bool.false_eq_true, not_false_eq_true, if_false, if_true, Option.some.injEq] at h
        subst h
        simp only [hh, if_false, false_implies, true_and, List.nil_append, List.Perm.refl]
        intro hc
        constructor <;> simp [hc.num, hc.halt, hc.unknown, hc.iqu, hc.quasi, hc.inf, List.countP_append, Rec.Halted, h1, h2, h3]
  · have hh : ¬ r.Halted := fun x => h1 x.1
    simp only [h1, Bool.false_eq_true, not_false_eq_true, if_true, Option.some.injEq] at h
    subst h
    simp only [hh, if_false, false_implies, true_and, List.nil_append, List.Perm.refl]
    intro hc
    constructor <;> simp [hc.num, hc.halt, hc.unknown, hc.iqu, hc.quasi, hc.inf, List.countP_append, Rec.Halted, h1]

/-- the jobs in a queue have not been run -/
def Fresh (l : List Rec) : Prop := ∀ r ∈ l, r.status = .empty

theorem Fresh.perm {l l' : List Rec} (h : Fresh l) (p : l.Perm l') : Fresh l' := fun r hr => h r (p.mem_iff.2 hr)

theorem ran_empty {r : Rec} (h : r.status = .empty) : r.kids = [] ∧ r.written = r ∧ ¬ r.Halted := by
  have : ¬ r.Halted := by
    unfold Rec.Halted; rw [h]; decide
  simp [Rec.kids, Rec.written, this]

theorem enumLoop_spec (hI : LawfulQueue I contents) (hs : ∀ i l, (shuf i l).Perm l) (numEnum : Nat) :
    ∀ (fuel : Nat) (s s' : EState σ), enumLoop I shuf decide numEnum fuel s = .ok s' → Fresh (contents s.stack) →
      ∃ ran : List Rec, s'.out = s.out ++ ran.map Rec.written ∧ s'.tmNum = s.tmNum + ran.length ∧
        (ran.map Rec.unrun ++ contents s'.stack).Perm (contents s.stack ++ ran.flatMap Rec.kids) ∧
        (∀ r ∈ ran, r.Handled ∧ ∃ i, r.status = decide i r.tme) ∧ (Counted s → Counted s') ∧ Fresh (contents s'.stack) ∧
        (contents s'.stack = [] ∨ numEnum ≠ 0 ∧ numEnum ≤ s'.tmNum) ∧
        (∀ d : TMEnum → BBStatus, (∀ i e, decide i e = d e) → ran = (ran.map Rec.unrun).map (fun r => r.ran (d r.tme)) ∧
          Explores (fun r => ((r.ran (d r.tme)).kids : Multiset Rec)) (contents s.stack) (ran.map Rec.unrun : List Rec) (contents s'.stack))
  | 0, _, _, h, _ => by simp [enumLoop] at h
  | fuel + 1, s, s', h, hf => by
    unfold enumLoop at h
    split at h
    · rename_i hc
      simp only [Res.ok.injEq] at h
      subst h
      exact ⟨[], by simp, by simp, by simp, by simp, id, hf, Or.inr hc, fun d hd => ⟨rfl, .stop _⟩⟩
    · split at h
      · rename_i st hp
        simp only [Res.ok.injEq] at h
        subst h
        obtain ⟨c1, c2⟩ := hI.pop_none s.stack (by rw [hp])
        rw [hp] at c2
        refine ⟨[], by simp, by simp, ?_, by simp, fun hc => ⟨hc.1, hc.2, hc.3, hc.4, hc.5, hc.6⟩, ?_, Or.inl c2, fun d hd => ⟨rfl, ?_⟩⟩
        · simp only [c1, c2]; simp
        · simp only [c2]; simp [Fresh]
        · simp only [c1, c2]; exact .stop _
      · rename_i r st hp
        have hperm := hI.pop_some s.stack r (by rw [hp])
        rw [hp] at hperm
        have hr : r.status = .empty := hf r (hperm.mem_iff.2 (by simp))
        split at h
        · simp at h
        · rename_i s1 ha
          obtain ⟨o1, o2, o3, o4, o5⟩ := addResult_spec hI hs ha
          simp only at o1 o2 o3
          have hf1 : Fresh (contents s1.stack) := by
            refine Fresh.perm ?_ o3.symm
            intro x hx
            rcases List.mem_append.1 hx with hx | hx
            · exact kids_unrun _ x hx
            · exact hf x (hperm.mem_iff.2 (by simp [hx]))
          obtain ⟨ran, i1, i2, i3, i4, i5, i6, i7, i8⟩ := enumLoop_spec hI hs numEnum fuel s1 s' h hf1
          refine ⟨r.ran (decide s.tmNum r.tme) :: ran, ?_, ?_, ?_, ?_, ?_, i6, i7, ?_⟩
          · rw [i1, o1]; simp [Rec.ran]
          · rw [i2, o2, List.length_cons]; omega
          · rw [List.map_cons, Rec.unrun_ran hr, List.cons_append, List.flatMap_cons]
            refine (List.Perm.cons _ i3).trans ?_
            refine (List.Perm.cons _ (o3.append_right _)).trans ?_
            refine List.Perm.trans ?_ (hperm.symm.append_right _)
            rw [List.cons_append]
            refine List.Perm.cons _ ?_
            rw [← List.append_assoc]
            exact List.perm_append_comm.append_right _
          · intro x hx
            rcases List.mem_cons.1 hx with rfl | hx
            · exact ⟨o4, s.tmNum, rfl⟩
            · exact i4 x hx
          · intro hc
            exact i5 (o5 ⟨hc.1, hc.2, hc.3, hc.4, hc.5, hc.6⟩)
          · intro d hd
            obtain ⟨j1, j2⟩ := i8 d hd
            refine ⟨?_, ?_⟩
            · rw [List.map_cons, List.map_cons, ← j1, Rec.unrun_ran hr, hd]
            · rw [List.map_cons, Rec.unrun_ran hr]
              have e1 : (contents s.stack : Multiset Rec) = r ::ₘ (contents st : Multiset Rec) := by
                rw [Multiset.cons_coe]; exact Multiset.coe_eq_coe.2 hperm
              rw [e1, ← Multiset.cons_coe]
              refine .take ?_
              have e2 : (contents s1.stack : Multiset Rec) = ((r.ran (d r.tme)).kids : Multiset Rec) + (contents st : Multiset Rec) := by
                rw [Multiset.coe_add, ← hd s.tmNum]; exact Multiset.coe_eq_coe.2 o3
              rw [← e2]
              exact j2

theorem drainLoop_spec (hI : LawfulQueue I contents) (hs : ∀ i l, (shuf i l).Perm l) :
    ∀ (fuel : Nat) (s s' : EState σ), drainLoop I shuf fuel s = .ok s' → Fresh (contents s.stack) →
      ∃ drained : List Rec, s'.out = s.out ++ drained ∧ s'.tmNum = s.tmNum + drained.length ∧
        drained.Perm (contents s.stack) ∧ contents s'.stack = [] ∧ (Counted s → Counted s')
  | 0, _, _, h, _ => by simp [drainLoop] at h
  | fuel + 1, s, s', h, hf => by
    unfold drainLoop at h
    split at h
    · rename_i st hp
      simp only [Res.ok.injEq] at h
      subst h
      obtain ⟨c1, c2⟩ := hI.pop_none s.stack (by rw [hp])
      rw [hp] at c2
      exact ⟨[], by simp, by simp, by simp [c1], c2, fun hc => ⟨hc.1, hc.2, hc.3, hc.4, hc.5, hc.6⟩⟩
    · rename_i r st hp
      have hperm := hI.pop_some s.stack r (by rw [hp])
      rw [hp] at hperm
      obtain ⟨k1, k2, -⟩ := ran_empty (hf r (hperm.mem_iff.2 (by simp)))
      split at h
      · simp at h
      · rename_i s1 ha
        obtain ⟨o1, o2, o3, o4, o5⟩ := addResult_spec hI hs ha
        simp only [k1, k2, List.nil_append] at o1 o2 o3
        have hf1 : Fresh (contents s1.stack) := Fresh.perm (fun x hx => hf x (hperm.mem_iff.2 (by simp [hx]))) o3.symm
        obtain ⟨drained, i1, i2, i3, i4, i5⟩ := drainLoop_spec hI hs fuel s1 s' h hf1
        refine ⟨r :: drained, ?_, ?_, ?_, i4, fun hc => i5 (o5 ⟨hc.1, hc.2, hc.3, hc.4, hc.5, hc.6⟩)⟩
        · rw [i1, o1]; simp
        · rw [i2, o2, List.length_cons]; omega
        · exact ((i3.trans o3).cons r).trans hperm.symm

theorem continueEnum_spec (hI : LawfulQueue I contents) (hs : ∀ i l, (shuf i l).Perm l) (numEnum fuel : Nat)
    (s s' : EState σ) (h : continueEnum I shuf decide numEnum fuel s = .ok s') (hf : Fresh (contents s.stack)) :
    ∃ ran drained : List Rec, s'.out = s.out ++ (ran.map Rec.written ++ drained) ∧
        s'.tmNum = s.tmNum + ran.length + drained.length ∧
        (ran.map Rec.unrun ++ drained).Perm (contents s.stack ++ ran.flatMap Rec.kids) ∧
        (∀ r ∈ ran, r.Handled ∧ ∃ i, r.status = decide i r.tme) ∧ (Counted s → Counted s') ∧ contents s'.stack = [] ∧
        Fresh drained ∧ (drained = [] ∨ numEnum ≠ 0 ∧ numEnum ≤ s'.tmNum) ∧
        (∀ d : TMEnum → BBStatus, (∀ i e, decide i e = d e) → ran = (ran.map Rec.unrun).map (fun r => r.ran (d r.tme)) ∧
          Explores (fun r => ((r.ran (d r.tme)).kids : Multiset Rec)) (contents s.stack) (ran.map Rec.unrun : List Rec) drained) := by
  unfold continueEnum at h
  cases hl : enumLoop I shuf decide numEnum fuel s with
  | fuel => simp [hl] at h
  | raised => simp [hl] at h
  | ok s1 =>
    simp only [hl] at h
    obtain ⟨ran, i1, i2, i3, i4, i5, i6, i7, i8⟩ := enumLoop_spec hI hs numEnum fuel s s1 hl hf
    by_cases hn : numEnum = 0
    · simp only [hn, ne_eq, not_true_eq_false, if_false, Res.ok.injEq] at h
      subst h
      have hc : contents s1.stack = [] := i7.resolve_right (fun x => x.1 hn)
      rw [hc] at i3
      refine ⟨ran, [], by simpa using i1, by simpa using i2, i3, i4, i5, hc, by simp [Fresh], Or.inl rfl, fun d hd => ?_⟩
      have := i8 d hd
      rwa [hc] at this
    · simp only [ne_eq, hn, not_false_eq_true, if_true] at h
      obtain ⟨drained, j1, j2, j3, j4, j5⟩ := drainLoop_spec hI hs fuel s1 s' h i6
      refine ⟨ran, drained, by rw [j1, i1, List.append_assoc], by rw [j2, i2], ?_, i4, fun hc => j5 (i5 hc), j4,
        i6.perm j3.symm, ?_, fun d hd => ?_⟩
      · exact (List.Perm.append_left _ j3).trans i3
      · rcases i7 with hc | ⟨hc1, hc2⟩
        · rw [hc] at j3; exact Or.inl j3.eq_nil
        · exact Or.inr ⟨hc1, by omega⟩
      · obtain ⟨k1, k2⟩ := i8 d hd
        refine ⟨k1, ?_⟩
        rw [Multiset.coe_eq_coe.2 j3]
        exact k2

theorem Explores.add_pending {J : Type} {ch : J → Multiset J} {s d l : Multiset J} (u : Multiset J) (h : Explores ch s d l) :
    Explores ch (s + u) d (l + u) := by
  induction h with
  | stop s => exact .stop _
  | take h ih =>
    rw [Multiset.cons_add]
    refine .take ?_
    rwa [← add_assoc]

theorem enumMain_spec (hI : LawfulQueue I contents) (hs : ∀ i l, (shuf i l).Perm l) (numEnum fuel : Nat) :
    ∀ (inits : List Rec) (s s' : EState σ), enumMain I shuf decide numEnum fuel inits s = .ok s' → Fresh inits →
      contents s.stack = [] →
    ∃ ran drained outs : List Rec, s'.out = s.out ++ outs ∧ outs.Perm (ran.map Rec.written ++ drained) ∧
        s'.tmNum = s.tmNum + ran.length + drained.length ∧
        (ran.map Rec.unrun ++ drained).Perm (inits ++ ran.flatMap Rec.kids) ∧
        (∀ r ∈ ran, r.Handled ∧ ∃ i, r.status = decide i r.tme) ∧ (Counted s → Counted s') ∧ contents s'.stack = [] ∧
        Fresh drained ∧ (drained = [] ∨ numEnum ≠ 0 ∧ numEnum ≤ s'.tmNum) ∧
        (∀ d : TMEnum → BBStatus, (∀ i e, decide i e = d e) → ran = (ran.map Rec.unrun).map (fun r => r.ran (d r.tme)) ∧
          Explores (fun r => ((r.ran (d r.tme)).kids : Multiset Rec)) inits (ran.map Rec.unrun : List Rec) drained)
  | [], s, s', h, hf, hc => by
    simp only [enumMain, Res.ok.injEq] at h
    subst h
    exact ⟨[], [], [], by simp, by simp, by simp, by simp, by simp, id, hc, by simp [Fresh], Or.inl rfl, fun d hd => ⟨rfl, .stop _⟩⟩
  | r :: rs, s, s', h, hf, hc => by
    unfold enumMain at h
    split at h
    · rename_i s1 h1
      have hperm := hI.push s.stack r
      rw [hc] at hperm
      obtain ⟨ran, dr, i1, i2, i3, i4, i5, i6, i7, i8, i9⟩ := continueEnum_spec hI hs numEnum fuel _ s1 h1
        (Fresh.perm (fun x hx => hf x (by simp only [List.mem_singleton] at hx; simp [hx])) hperm.symm)
      simp only at i1 i2 i3 i9
      obtain ⟨ran', dr', outs, j0, j1, j2, j3, j4, j5, j6, j7, j8, j9⟩ :=
        enumMain_spec hI hs numEnum fuel rs s1 s' h (fun x hx => hf x (by simp [hx])) i6
      refine ⟨ran ++ ran', dr ++ dr', (ran.map Rec.written ++ dr) ++ outs, by rw [j0, i1, List.append_assoc], ?_, ?_, ?_, ?_,
        fun hcc => j5 (i5 ⟨hcc.1, hcc.2, hcc.3, hcc.4, hcc.5, hcc.6⟩), j6, ?_, ?_, ?_⟩
      · rw [List.map_append]
        refine (List.Perm.append_left _ j1).trans ?_
        simp only [List.append_assoc]
        refine List.Perm.append_left _ ?_
        simp only [← List.append_assoc]
        exact List.perm_append_comm.append_right _
      · rw [j2, i2]; simp only [List.length_append]; omega
      · rw [List.map_append, List.flatMap_append]
        have e1 : (ran.map Rec.unrun ++ ran'.map Rec.unrun ++ (dr ++ dr')).Perm
            ((ran.map Rec.unrun ++ dr) ++ (ran'.map Rec.unrun ++ dr')) := by
          simp only [List.append_assoc]
          refine List.Perm.append_left _ ?_
          simp only [← List.append_assoc]
          exact List.perm_append_comm.append_right _
        refine e1.trans ((i3.append j3).trans ?_)
        have e2 : (contents (I.push s.stack r) ++ ran.flatMap Rec.kids ++ (rs ++ ran'.flatMap Rec.kids)).Perm
            (([r] ++ ran.flatMap Rec.kids) ++ (rs ++ ran'.flatMap Rec.kids)) := (hperm.append_right _).append_right _
        refine e2.trans ?_
        simp only [List.append_assoc, List.singleton_append, List.cons_append]
        refine List.Perm.cons _ ?_
        simp only [← List.append_assoc]
        exact List.perm_append_comm.append_right _
      · intro x hx
        rcases List.mem_append.1 hx with hx | hx
        · exact i4 x hx
        · exact j4 x hx
      · intro x hx
        rcases List.mem_append.1 hx with hx | hx
        · exact i7 x hx
        · exact j7 x hx
      · rcases i8 with rfl | ⟨a, b⟩
        · rcases j8 with rfl | j8
          · exact Or.inl rfl
          · exact Or.inr j8
        · exact Or.inr ⟨a, by omega⟩
      · intro d hd
        obtain ⟨k1, k2⟩ := i9 d hd
        obtain ⟨l1, l2⟩ := j9 d hd
        refine ⟨?_, ?_⟩
        · rw [List.map_append, List.map_append, ← k1, ← l1]
        · rw [Multiset.coe_eq_coe.2 hperm] at k2
          have e1 := Explores.add_pending (rs : Multiset Rec) k2
          have e2 := Explores.add_pending (dr : Multiset Rec) l2
          rw [add_comm _ (dr : Multiset Rec), add_comm _ (dr : Multiset Rec)] at e2
          have e3 := e1.trans e2
          simpa [← Multiset.coe_add] using e3
    · rename_i hx
      exact absurd h (hx _)

end

end Model.IO
