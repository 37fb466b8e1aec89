import Verif.Lemmas.CPSCertEnough
import Verif.Props.CPS

/-!
# C83: certificates of closed position sets

`savaskCert g success` is the text that `CPS.py --savask-cert` prints after the run.  `Spec.CPSCert` says how to
read such a text, and when it proves that the machine never halts, without reference to the program.
-/

namespace Props
open Spec Spec.CPSCert Model Model.CPS

/-- the sizes that the filter tries -/
theorem filterSizes_ok {minBlock : Nat} (hmin : 0 < minBlock) (maxBlock maxWindow : Nat) :
    ∀ p ∈ filterSizes minBlock maxBlock maxWindow, 0 < p.1 ∧ 2 * p.1 ≤ p.2 := by
  intro p hp
  unfold filterSizes at hp
  split at hp
  · obtain ⟨k, hk, rfl⟩ := List.mem_map.1 hp
    have := List.mem_range'_1.1 hk
    exact ⟨by simp only; omega, by simp only; omega⟩
  · obtain ⟨w, hw, hp⟩ := List.mem_flatMap.1 hp
    obtain ⟨k, hk, rfl⟩ := List.mem_map.1 hp
    have := List.mem_range'_1.1 hk
    exact ⟨by simp only; omega, by simp only; omega⟩

/-- **C83.** The printed certificate is a proof: for a machine with one-digit symbols and states with names of
their own, after success the text is printed and can be read, its windows have the size that was asked for with
a block in front of the head, it describes the blank tape, and every configuration that it describes runs into
another one (or for ever inside a window).  Without success the text is `Nothing`. -/
theorem C83_certificate (T : Table) (hT : Printable T) (k w : Nat) (hk : 0 < k) (hw : 2 * k ≤ w) (lim : Lim)
    (ordC : List (Cfg Nat (Option Nat)) → List (Cfg Nat (Option Nat))) (hC : Iterates ordC)
    (ordB : List (List Nat) → List (List Nat)) (hB : Iterates ordB) (g : CGS Nat (Option Nat)) (success : Bool)
    (hrun : CGS.run (simple T) k w lim ordC ordB = some (g, success)) :
    ∃ text, savaskCert g success = some text ∧
      (success = true → ∃ C, readCert text = some C ∧ Proves C k T ∧
        ∀ win ∈ C.windows, (win.left ++ win.right).length = w ∧
          (match win.dir with | .L => win.left.length = k | .R => win.right.length = k)) ∧
      (success = false → text = "Nothing".toList) := by
  cases success with
  | false => exact ⟨_, rfl, fun h => by simp at h, fun _ => by decide⟩
  | true =>
    have S := run_success hT hk hw lim hC hB hrun
    obtain ⟨text, C, h1, h2, h3, h4, h5, -⟩ := cert_read S
    exact ⟨text, h1, fun _ => ⟨C, h2, cert_proves hk hw S h3 h4 h5, cert_sizes S hw h5⟩, fun h => by simp at h⟩

/-- **C83.** Whoever believes the certificate need not believe the program: a machine with a certificate that
proves, whatever its origin, never halts on the blank tape. -/
theorem C83_certificate_sound (T : Table) (k : Nat) (C : Cert) (h : Proves C k T) : NeverHalts T init :=
  proves_never h

/-- **C83.** The text depends on the machine, the block size and the window size only: two successful runs, with
other limits and another order in which the sets are gone through, print the same text. -/
theorem C83_order_independent (T : Table) (hT : Printable T) (k w : Nat) (hk : 0 < k) (hw : 2 * k ≤ w)
    (lim lim' : Lim) (ordC ordC' : List (Cfg Nat (Option Nat)) → List (Cfg Nat (Option Nat))) (hC : Iterates ordC)
    (hC' : Iterates ordC') (ordB ordB' : List (List Nat) → List (List Nat)) (hB : Iterates ordB)
    (hB' : Iterates ordB') (g g' : CGS Nat (Option Nat))
    (hrun : CGS.run (simple T) k w lim ordC ordB = some (g, true))
    (hrun' : CGS.run (simple T) k w lim' ordC' ordB' = some (g', true)) :
    savaskCert g true = savaskCert g' true := by
  have S := run_success hT hk hw lim hC hB hrun
  have S' := run_success hT hk hw lim' hC' hB' hrun'
  exact text_unique S S' (run_within S' lim hC hB hrun) (run_within S lim' hC' hB' hrun')

/-- **C83.** Whether there is a text is a matter of the limits only: if some run succeeds, then a run that fails,
with other limits and another order, took more steps than it was allowed or came to the end of the rounds, windows
or pairs of blocks that it was allowed. -/
theorem C83_fails_by_limits (T : Table) (hT : Printable T) (k w : Nat) (hk : 0 < k) (hw : 2 * k ≤ w)
    (lim lim' : Lim) (ordC ordC' : List (Cfg Nat (Option Nat)) → List (Cfg Nat (Option Nat))) (hC : Iterates ordC)
    (hC' : Iterates ordC') (ordB ordB' : List (List Nat) → List (List Nat)) (hB : Iterates ordB)
    (hB' : Iterates ordB') (g g' : CGS Nat (Option Nat))
    (hrun : CGS.run (simple T) k w lim ordC ordB = some (g, true))
    (hrun' : CGS.run (simple T) k w lim' ordC' ordB' = some (g', false)) :
    lim'.steps < g'.steps ∨ lim'.iters ≤ g'.iters ∨ lim'.configs ≤ g'.configs ∨ lim'.edges ≤ g'.edges :=
  run_fail (run_success hT hk hw lim hC hB hrun) lim' hC' hB' hrun'

/-- **C83.** With enough of everything, all runs succeed if one does: there is a number such that with limits that
are no smaller, going through the sets in any order (each window once), the run succeeds, with the same text. -/
theorem C83_enough_limits (T : Table) (hT : Printable T) (k w : Nat) (hk : 0 < k) (hw : 2 * k ≤ w) (lim : Lim)
    (ordC : List (Cfg Nat (Option Nat)) → List (Cfg Nat (Option Nat))) (hC : Iterates ordC)
    (ordB : List (List Nat) → List (List Nat)) (hB : Iterates ordB) (g : CGS Nat (Option Nat))
    (hrun : CGS.run (simple T) k w lim ordC ordB = some (g, true)) :
    ∃ B, ∀ lim' : Lim, B ≤ lim'.steps → B ≤ lim'.iters → B ≤ lim'.configs → B ≤ lim'.edges →
      ∀ ordC' : List (Cfg Nat (Option Nat)) → List (Cfg Nat (Option Nat)), (∀ l, (ordC' l).Perm l) →
      ∀ ordB' : List (List Nat) → List (List Nat), Iterates ordB' →
        ∃ g', CGS.run (simple T) k w lim' ordC' ordB' = some (g', true) ∧ savaskCert g' true = savaskCert g true := by
  obtain ⟨B, h⟩ := run_enough hT hk hw (run_success hT hk hw lim hC hB hrun)
  refine ⟨B, fun lim' l1 l2 l3 l4 ordC' hC' ordB' hB' => ?_⟩
  have hI : Iterates ordC' := fun l x => (hC' l).mem_iff
  obtain ⟨g', b, hr, -⟩ := C20_cps_sound T k w hk hw lim' ordC' hI ordB' hB'
  cases b with
  | false => exact absurd hr (h lim' l1 l2 l3 l4 ordC' hC' ordB' hB' g')
  | true => exact ⟨g', hr, C83_order_independent T hT k w hk hw lim' lim ordC' ordC hI hC ordB' ordB hB' hB g' g hr hrun⟩

/-- **C83.** The same for the filter that tries many sizes: if it succeeds with some limits and some order, then
with limits that are large enough it succeeds in any order. -/
theorem C83_filter_enough_limits (T : Table) (hT : Printable T) (minBlock maxBlock maxWindow : Nat)
    (hmin : 0 < minBlock) (lim : Lim)
    (ordC : List (Cfg Nat (Option Nat)) → List (Cfg Nat (Option Nat))) (hC : Iterates ordC)
    (ordB : List (List Nat) → List (List Nat)) (hB : Iterates ordB)
    (hrun : filterAll (simple T) lim ordC ordB (filterSizes minBlock maxBlock maxWindow) = some true) :
    ∃ B, ∀ lim' : Lim, B ≤ lim'.steps → B ≤ lim'.iters → B ≤ lim'.configs → B ≤ lim'.edges →
      ∀ ordC' : List (Cfg Nat (Option Nat)) → List (Cfg Nat (Option Nat)), (∀ l, (ordC' l).Perm l) →
      ∀ ordB' : List (List Nat) → List (List Nat), Iterates ordB' →
        filterAll (simple T) lim' ordC' ordB' (filterSizes minBlock maxBlock maxWindow) = some true := by
  have hsz := filterSizes_ok hmin maxBlock maxWindow
  generalize filterSizes minBlock maxBlock maxWindow = l at hsz hrun
  induction l with
  | nil => cases hrun
  | cons p l ih =>
    obtain ⟨k, w⟩ := p
    obtain ⟨h1, h2⟩ := hsz (k, w) (by simp)
    have hl : ∀ p ∈ l, 0 < p.1 ∧ 2 * p.1 ≤ p.2 := fun p hp => hsz p (List.mem_cons_of_mem _ hp)
    unfold filterAll at hrun
    obtain ⟨g, b, hr, -⟩ := C20_cps_sound T k w h1 h2 lim ordC hC ordB hB
    rw [hr] at hrun
    cases b with
    | true =>
      obtain ⟨B, h⟩ := C83_enough_limits T hT k w h1 h2 lim ordC hC ordB hB g hr
      refine ⟨B, fun lim' l1 l2 l3 l4 ordC' hC' ordB' hB' => ?_⟩
      obtain ⟨g', hr', -⟩ := h lim' l1 l2 l3 l4 ordC' hC' ordB' hB'
      unfold filterAll
      rw [hr']
    | false =>
      obtain ⟨B, h⟩ := ih hl hrun
      refine ⟨B, fun lim' l1 l2 l3 l4 ordC' hC' ordB' hB' => ?_⟩
      obtain ⟨g', b, hr', -⟩ := C20_cps_sound T k w h1 h2 lim' ordC' (fun l x => (hC' l).mem_iff) ordB' hB'
      unfold filterAll
      rw [hr']
      cases b with
      | true => rfl
      | false => exact h lim' l1 l2 l3 l4 ordC' hC' ordB' hB'

/-- **C83.** The number of edges that is reported (and compared with its limit) is the number of pairs in the
certificate, not counting the two with which the run begins: blanks follow blanks on both sides.  The number of
configurations reported is at least that of the windows, not counting the first (it can be more, as windows that
wait for their simulation may be counted again). -/
theorem C83_counts_reported (T : Table) (hT : Printable T) (k w : Nat) (hk : 0 < k) (hw : 2 * k ≤ w) (lim : Lim)
    (ordC : List (Cfg Nat (Option Nat)) → List (Cfg Nat (Option Nat))) (hC : Iterates ordC)
    (ordB : List (List Nat) → List (List Nat)) (hB : Iterates ordB) (g : CGS Nat (Option Nat))
    (hrun : CGS.run (simple T) k w lim ordC ordB = some (g, true)) :
    ∃ text C, savaskCert g true = some text ∧ readCert text = some C ∧
      C.left.length + C.right.length = g.edges + 2 ∧ C.left.Nodup ∧ C.right.Nodup ∧
      C.windows.length ≤ g.configs + 1 := by
  have S := run_success hT hk hw lim hC hB hrun
  obtain ⟨text, C, h1, h2, h3, h4, -, h5⟩ := cert_read S
  have N := run_within S lim hC hB hrun
  exact ⟨text, C, h1, h2, by rw [h3, h4]; exact run_counted lim hrun, h3 ▸ edgeList_nodup S.cert N .L,
    h4 ▸ edgeList_nodup S.cert N .R, h5 ▸ run_listed lim hC N.keys hrun⟩

/-- a machine that goes to a state without a name and stays there -/
def nameless : Table := fun _ _ => .go 0 .R 72

/-- a machine that writes a symbol of two digits for ever -/
def twoDigits : Table := fun _ _ => .go 10 .R 0

/-- **C83.** Why the machine must be printable: after success, printing raises if a state has no name; with
symbols of two digits, the text that was asked for with windows of two cells has a window of three. -/
theorem C83_certificate_limit :
    (∃ g, CGS.run (simple nameless) 1 2 exLim id id = some (g, true) ∧ savaskCert g true = none) ∧
    ∃ g text C, CGS.run (simple twoDigits) 1 2 exLim id id = some (g, true) ∧ savaskCert g true = some text ∧
      readCert text = some C ∧ ∃ win ∈ C.windows, (win.left ++ win.right).length = 3 := by
  have h1 : (CGS.run (simple nameless) 1 2 exLim id id).map (fun r => (r.2, savaskCert r.1 r.2)) =
      some (true, none) := by decide +kernel
  have h2 : (CGS.run (simple twoDigits) 1 2 exLim id id).map (fun r => (r.2, savaskCert r.1 r.2)) =
      some (true, some "Result 3 0 0 10 0 10 10 1 0 0 2 0A>0 10A>0".toList) := by decide +kernel
  have h3 : readCert "Result 3 0 0 10 0 10 10 1 0 0 2 0A>0 10A>0".toList =
      some ⟨[([0], [0]), ([1, 0], [0]), ([1, 0], [1, 0])], [([0], [0])], [⟨[0], 0, .R, [0]⟩, ⟨[1, 0], 0, .R, [0]⟩]⟩ := by
    decide +kernel
  constructor
  · rw [Option.map_eq_some_iff] at h1
    obtain ⟨⟨g, b⟩, hr, he⟩ := h1
    simp only [Prod.mk.injEq] at he
    obtain ⟨rfl, he⟩ := he
    exact ⟨g, hr, he⟩
  · rw [Option.map_eq_some_iff] at h2
    obtain ⟨⟨g, b⟩, hr, he⟩ := h2
    simp only [Prod.mk.injEq] at he
    obtain ⟨rfl, he⟩ := he
    exact ⟨g, _, _, hr, he, h3, ⟨[1, 0], 0, .R, [0]⟩, by simp, rfl⟩

/-! Examples -/

theorem stripes_printable : Printable stripes := by
  intro q a s d q' h
  unfold stripes tbl at h
  revert h
  match q, a with
  | 0, 0 => intro h; simp at h; omega
  | 1, 0 => intro h; simp at h; omega
  | 0, a + 1 => intro h; simp at h
  | 1, a + 1 => intro h; simp at h
  | q + 2, a => intro h; simp at h

/-- what is printed for a machine that writes stripes, with blocks of one symbol and windows of two -/
example : ((CGS.run (simple stripes) 1 2 exLim id id).bind fun r => savaskCert r.1 r.2) =
    some "Result 3 0 0 0 1 1 0 1 0 0 2 0A>0 1B>0".toList := by decide +kernel

/-- a machine that goes to and fro -/
example : ((CGS.run (simple bouncer2) 1 3 exLim id id).bind fun r => savaskCert r.1 r.2) =
    some "Result 3 0 0 1 0 1 1 3 0 0 1 0 1 1 6 00A>0 01B>0 0<A11 11B>0 11B>1 1<A11".toList := by decide +kernel

/-- a machine for which the order matters: `1RB0LB_1LA0RA` -/
def wavering : Table := tbl [[.go 1 .R 1, .go 0 .L 1], [.go 1 .L 0, .go 0 .R 0]]

/-- limits that are just enough -/
def tightLim : Lim := { steps := 17, iters := 9, configs := 30, edges := 30 }

/-- other limits, the sets gone through backwards: the windows are found in another order, the text is the same -/
example : ((CGS.run (simple wavering) 1 3 tightLim List.reverse List.reverse).bind fun r => savaskCert r.1 r.2) =
    some "Result 4 0 0 0 1 1 0 1 1 4 0 0 0 1 1 0 1 1 9 00A>0 01B>0 01B>1 0<A10 0<B01 10A>0 10A>1 1<A10 1<B01".toList ∧
    ((CGS.run (simple wavering) 1 3 exLim id id).bind fun r => savaskCert r.1 r.2) =
    some "Result 4 0 0 0 1 1 0 1 1 4 0 0 0 1 1 0 1 1 9 00A>0 01B>0 01B>1 0<A10 0<B01 10A>0 10A>1 1<A10 1<B01".toList ∧
    (CGS.run (simple wavering) 1 3 tightLim List.reverse List.reverse).map (fun r => r.1.trans.map (·.1)) ≠
      (CGS.run (simple wavering) 1 3 exLim id id).map (fun r => r.1.trans.map (·.1)) := by
  decide +kernel

/-- one step less than just enough: the run fails after one step too many, with windows and pairs left -/
example : (CGS.run (simple wavering) 1 3 { tightLim with steps := 16 } List.reverse List.reverse).map
      (fun r => (r.2, r.1.steps, r.1.iters, r.1.configs, r.1.edges)) = some (false, 17, 1, 8, 6) := by
  decide +kernel

/-- four pairs are listed for `stripes`, two of them were found; of two windows, one -/
example : (CGS.run (simple stripes) 1 2 exLim id id).map (fun r => (r.1.edges, r.1.configs)) = some (2, 1) := by
  decide +kernel

/-- six windows, six configurations although the first was not counted: `0RB1LB_1LA1RB` -/
example : (CGS.run (simple (tbl [[.go 0 .R 1, .go 1 .L 1], [.go 1 .L 0, .go 1 .R 1]])) 1 3 exLim id id).map
    (fun r => (r.2, r.1.configs, r.1.trans.length)) = some (true, 6, 6) := by decide +kernel

/-- with few steps, it depends on the order whether a run succeeds: `1RB0LA_1LA0RB` -/
example : (CGS.run (simple (tbl [[.go 1 .R 1, .go 0 .L 0], [.go 1 .L 0, .go 0 .R 1]])) 1 2
      { exLim with steps := 13 } id id).map (fun r => (r.2, r.1.steps)) = some (true, 13) ∧
    (CGS.run (simple (tbl [[.go 1 .R 1, .go 0 .L 0], [.go 1 .L 0, .go 0 .R 1]])) 1 2
      { exLim with steps := 13 } List.reverse List.reverse).map (·.2) = some false ∧
    (CGS.run (simple (tbl [[.go 1 .R 1, .go 0 .L 0], [.go 1 .L 0, .go 0 .R 1]])) 1 2
      { exLim with steps := 15 } List.reverse List.reverse).map (·.2) = some true := by decide +kernel

/-- the filter, with the same machine: 13 steps are not enough for windows of two cells if the order is reversed -/
example : filterAll (simple (tbl [[.go 1 .R 1, .go 0 .L 0], [.go 1 .L 0, .go 0 .R 1]])) { exLim with steps := 13 } id id
      (filterSizes 1 1 2) = some true ∧
    filterAll (simple (tbl [[.go 1 .R 1, .go 0 .L 0], [.go 1 .L 0, .go 0 .R 1]])) { exLim with steps := 13 }
      List.reverse List.reverse (filterSizes 1 1 2) = some false := by decide +kernel

/-- reading it -/
example : readCert "Result 3 0 0 0 1 1 0 1 0 0 2 0A>0 1B>0".toList =
    some ⟨[([0], [0]), ([0], [1]), ([1], [0])], [([0], [0])], [⟨[0], 0, .R, [0]⟩, ⟨[1], 1, .R, [0]⟩]⟩ := by
  decide +kernel

-- texts that are not certificates: a number that does not match, a window without a head
example : readCert "Result 2 0 0 0 1 1 0 1 0 0 2 0A>0 1B>0".toList = none := by decide +kernel
example : readCert "Result 1 0 0 1 0 0 1 00".toList = none := by decide +kernel

/-- the hypotheses of the first theorem are met -/
example : ∃ g, CGS.run (simple stripes) 1 2 exLim id id = some (g, true) ∧ Printable stripes := by
  have h : (CGS.run (simple stripes) 1 2 exLim id id).map (·.2) = some true := by decide +kernel
  rw [Option.map_eq_some_iff] at h
  obtain ⟨⟨g, b⟩, hr, he⟩ := h
  simp only at he
  subst he
  exact ⟨g, hr, stripes_printable⟩

end Props
