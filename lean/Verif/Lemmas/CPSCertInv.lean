import Verif.Lemmas.CPS
import Verif.Lemmas.ProverStacks
import Verif.Model.CPSCert
import Verif.Spec.CPSCert

/-!
# What a closed position set contains: one-digit symbols, states with names; and its closure after success
-/

namespace Model.CPS
open Spec Spec.CPSCert

abbrev G := CGS Nat (Option Nat)

/-- a state with a name of its own -/
def Named (s : Option Nat) : Prop := ∃ q, s = some q ∧ q < 70

def Digit (b : List Nat) : Prop := ∀ a ∈ b, a < 10

structure CertC (w : Nat) (c : Cfg Nat (Option Nat)) : Prop where
  len : c.window.length = w
  lo : 0 ≤ c.pos
  hi : c.pos < w
  sym : Digit c.window
  st : Named c.st

structure CertG (k w : Nat) (g : G) : Prop where
  todo : ∀ c ∈ g.todo, CertC w c
  trans : ∀ e ∈ g.trans, CertC w e.1 ∧ (e.2.cond = .running → e.2.sym.length = w ∧ Digit e.2.sym ∧ Named e.2.st)
  cont : ∀ d, ∀ e ∈ g.cont d, Digit e.1 ∧ ∀ x ∈ e.2, Digit x ∧ x.length = k
  keys : ∀ d, Py.NodupKeys (g.cont d)

theorem printable_stays {T : Table} (hT : Printable T) : Stays (simple T) Named (fun a => a < 10) := by
  constructor
  · rintro a q d ⟨q, rfl, -⟩ _
    simp only [simple]; cases T q a <;> simp
  · rintro a q d ⟨q, rfl, -⟩ _
    simp only [simple]
    cases h : T q a with
    | undef => simp
    | halt => simp
    | go s d q' => exact fun _ => ⟨⟨q', rfl, (hT _ _ _ _ _ h).2⟩, (hT _ _ _ _ _ h).1⟩

theorem cert_mem_dset {κ ν : Type} [DecidableEq κ] {d : List (κ × ν)} {k : κ} {v : ν} {e : κ × ν}
    (h : e ∈ Py.dset d k v) : e = (k, v) ∨ e ∈ d := by
  induction d with
  | nil => simpa [Py.dset] using h
  | cons f d ih =>
    unfold Py.dset at h
    split at h
    · rcases List.mem_cons.1 h with h | h
      · exact Or.inl h
      · exact Or.inr (by simp [h])
    · rcases List.mem_cons.1 h with h | h
      · exact Or.inr (by simp [h])
      · rcases ih h with h | h
        · exact Or.inl h
        · exact Or.inr (by simp [h])

theorem slice_sub {xs : List Nat} {s e : Int} {a : Nat} (h : a ∈ pySlice xs s e) : a ∈ xs :=
  List.mem_of_mem_drop (List.mem_of_mem_take h)

theorem block_digit {k : Nat} {c : Cfg Nat (Option Nat)} (h : Digit c.window) (d : Dir) (i : Nat) :
    Digit (c.getBlock k d i) := by
  intro a ha
  unfold Cfg.getBlock at ha
  cases d <;> exact h a (slice_sub ha)

theorem dsts_cert {k w : Nat} {g : G} (h : CertG k w g) {d : Dir} {src dst : List Nat} (hd : dst ∈ g.dsts d src) :
    Digit dst ∧ dst.length = k := by
  unfold CGS.dsts at hd
  cases hg : Py.dget (g.cont d) src with
  | none => rw [hg] at hd; cases hd
  | some v =>
    rw [hg] at hd
    exact (h.cont d (src, v) ((Py.mem_iff_dget (h.keys d) src v).2 hg)).2 dst hd

theorem addEdge_cert {k w : Nat} {g : G} (h : CertG k w g) (d : Dir) {src dst : List Nat} (hs : Digit src)
    (hd : Digit dst) (hl : dst.length = k) : CertG k w (g.addEdge d src dst).1 := by
  have hS := addEdge_same g d src dst
  refine ⟨by rw [hS.todo]; exact h.todo, by rw [hS.trans]; exact h.trans, ?_, ?_⟩
  · unfold CGS.addEdge
    split
    · intro d' e he
      by_cases hdd : d' = d
      · subst hdd
        have : e ∈ Py.dset (g.cont d') src (g.dsts d' src ++ [dst]) := by cases d' <;> exact he
        rcases cert_mem_dset this with rfl | h'
        · refine ⟨hs, fun x hx => ?_⟩
          rcases List.mem_append.1 hx with hx | hx
          · exact dsts_cert h hx
          · rw [List.mem_singleton.1 hx]; exact ⟨hd, hl⟩
        · exact h.cont d' e h'
      · have : e ∈ g.cont d' := by
          cases d <;> cases d' <;> first | exact absurd rfl hdd | exact he
        exact h.cont d' e this
    · exact h.cont
  · unfold CGS.addEdge
    split
    · intro d'
      by_cases hdd : d' = d
      · subst hdd
        have : Py.NodupKeys (Py.dset (g.cont d') src (g.dsts d' src ++ [dst])) := Py.nodup_dset (h.keys d') _ _
        cases d' <;> exact this
      · have := h.keys d'
        cases d <;> cases d' <;> first | exact absurd rfl hdd | exact this
    · exact h.keys

theorem addEdges_cert {k w : Nat} (l : List (List Nat)) {g : G} (h : CertG k w g) (d : Dir) {src : List Nat}
    (hs : Digit src) (hl : ∀ x ∈ l, Digit x ∧ x.length = k) : CertG k w (g.addEdges d src l).1 := by
  induction l generalizing g with
  | nil => exact h
  | cons x l ih =>
    rw [addEdges_cons]
    have hx := hl x List.mem_cons_self
    exact ih (addEdge_cert h d hs hx.1 hx.2) (fun y hy => hl y (List.mem_cons_of_mem _ hy))

theorem addConfig_cert {k w : Nat} {g : G} (h : CertG k w g) {c : Cfg Nat (Option Nat)} (hc : CertC w c) :
    CertG k w (g.addConfig c).1 := by
  unfold CGS.addConfig
  split
  · refine ⟨fun x hx => ?_, h.trans, fun d => ?_, fun d => ?_⟩
    · rcases List.mem_append.1 hx with hx | hx
      · exact h.todo x hx
      · rw [List.mem_singleton.1 hx]; exact hc
    · have := h.cont d; cases d <;> exact this
    · have := h.keys d; cases d <;> exact this
  · exact h

theorem addFronts_cert {k w : Nat} (l : List (List Nat)) {g : G} (h : CertG k w g) {c : Cfg Nat (Option Nat)}
    (hl : ∀ f ∈ l, CertC w (c.shiftFront k f)) : CertG k w (g.addFronts k c l).1 := by
  induction l generalizing g with
  | nil => exact h
  | cons x l ih =>
    rw [addFronts_cons]
    exact ih (addConfig_cert h (hl x List.mem_cons_self)) (fun y hy => hl y (List.mem_cons_of_mem _ hy))

theorem shift_cert {k w : Nat} (hk : 0 < k) (hw : 2 * k ≤ w) {c : Cfg Nat (Option Nat)} (hlen : c.window.length = w)
    (hsym : Digit c.window) (hst : Named c.st) {f : List Nat} (hf : Digit f) (hfl : f.length = k) :
    CertC w (c.shiftFront k f) := by
  cases hd : c.dir with
  | L =>
    rw [shift_L c (by omega) hd]
    refine ⟨?_, ?_, ?_, ?_, hst⟩
    · simp [Cfg.new, hfl, hlen]; omega
    · simp only [Cfg.new]; omega
    · simp only [Cfg.new]; omega
    · intro a ha
      rcases List.mem_append.1 ha with ha | ha
      · exact hf a ha
      · exact hsym a (List.mem_of_mem_take ha)
  | R =>
    rw [shift_R c (by omega) hd]
    refine ⟨?_, ?_, ?_, ?_, hst⟩
    · simp [Cfg.new, hfl, hlen]; omega
    · simp [Cfg.new, hfl, hlen]; try omega
    · simp [Cfg.new, hfl, hlen]; omega
    · intro a ha
      rcases List.mem_append.1 ha with ha | ha
      · exact hsym a (List.mem_of_mem_drop ha)
      · exact hf a ha

theorem updateSet_cert {k w : Nat} (hk : 0 < k) (hw : 2 * k ≤ w)
    {ordB : List (List Nat) → List (List Nat)} (hB : ∀ l x, x ∈ ordB l ↔ x ∈ l) {g g' : G} {m : Bool}
    (h : CertG k w g) {old : Cfg Nat (Option Nat)} (he : g.updateSet k ordB old = some (g', m)) : CertG k w g' := by
  unfold CGS.updateSet at he
  cases ht : Py.dget g.trans old with
  | none => rw [ht] at he; cases he
  | some t =>
    rw [ht] at he
    simp only at he
    have hmem : ∃ e ∈ g.trans, e.2 = t := by
      unfold Py.dget at ht
      rw [Option.map_eq_some_iff] at ht
      obtain ⟨e, hfind, rfl⟩ := ht
      exact ⟨e, List.mem_of_find?_eq_some hfind, rfl⟩
    obtain ⟨e, hem, rfl⟩ := hmem
    split at he
    · next hc =>
      obtain ⟨hlen, hsym, hst⟩ := (h.trans e hem).2 hc
      cases he
      have hfu : Digit ((postConfig e.2).getBlock k e.2.dir.other 0) := block_digit hsym _ _
      have hse : Digit ((postConfig e.2).getBlock k e.2.dir.other 1) := block_digit hsym _ _
      have hful : ((postConfig e.2).getBlock k e.2.dir.other 0).length = k := block_len hw _ hlen _
      have h1 := addEdge_cert h e.2.dir.other hse hfu hful
      have h2 := addEdges_cert (ordB ((g.addEdge e.2.dir.other ((postConfig e.2).getBlock k e.2.dir.other 1)
        ((postConfig e.2).getBlock k e.2.dir.other 0)).1.dsts e.2.dir.other (old.getBlock k e.2.dir.other 0))) h1
        e.2.dir.other hfu (fun x hx => dsts_cert h1 ((hB _ _).1 hx))
      exact addFronts_cert _ h2 (fun f hf => by
        have := dsts_cert h2 ((hB _ _).1 hf)
        exact shift_cert hk hw hlen hsym hst this.1 this.2)
    · cases he; exact h

theorem simConfig_cert {T : Table} (hT : Printable T) {k w : Nat} (lim : Lim) {g : G} (h : CertG k w g)
    {c : Cfg Nat (Option Nat)} (hc : CertC w c) : CertG k w (g.simConfig (simple T) lim c).1 := by
  refine ⟨h.todo, fun e he => ?_, fun d => ?_, fun d => ?_⟩
  · rcases cert_mem_dset (d := g.trans) he with rfl | he
    · have := simLimited_stays (printable_stays hT) hc.st hc.sym hc.lo (by rw [hc.len]; exact hc.hi) c.dir
        (lim.steps - g.steps)
      exact ⟨hc, fun hr => ⟨this.2.1.trans hc.len, (this.2.2 hr).2, (this.2.2 hr).1⟩⟩
    · exact h.trans e he
  · have := h.cont d; cases d <;> exact this
  · have := h.keys d; cases d <;> exact this

theorem simAll_cert {T : Table} (hT : Printable T) {k w : Nat} (hk : 0 < k) (hw : 2 * k ≤ w) (lim : Lim)
    {ordB : List (List Nat) → List (List Nat)} (hB : ∀ l x, x ∈ ordB l ↔ x ∈ l)
    (cs : List (Cfg Nat (Option Nat))) (hcs : ∀ c ∈ cs, CertC w c) {g g' : G} (h : CertG k w g)
    (he : CGS.simAll (simple T) k lim ordB cs g = .go g') : CertG k w g' := by
  induction cs generalizing g with
  | nil => cases he; exact h
  | cons c cs ih =>
    unfold CGS.simAll at he
    have h1 := simConfig_cert hT lim h (hcs c List.mem_cons_self)
    revert he
    rcases hsc : g.simConfig (simple T) lim c with ⟨g1, cond⟩
    rw [hsc] at h1
    simp only at h1 ⊢
    intro he
    have hcs' : ∀ c ∈ cs, CertC w c := fun c hc => hcs c (List.mem_cons_of_mem _ hc)
    split at he
    · cases he
    · split at he
      · split at he
        · cases he
        · next g2 m hu => exact ih hcs' (updateSet_cert hk hw hB h1 hu) he
      · split at he
        · cases he
        · exact ih hcs' h1 he

theorem simTodo_cert {T : Table} (hT : Printable T) {k w : Nat} (hk : 0 < k) (hw : 2 * k ≤ w) (lim : Lim)
    {ordC : List (Cfg Nat (Option Nat)) → List (Cfg Nat (Option Nat))} (hC : ∀ l x, x ∈ ordC l ↔ x ∈ l)
    {ordB : List (List Nat) → List (List Nat)} (hB : ∀ l x, x ∈ ordB l ↔ x ∈ l) (fuel : Nat) {g g' : G}
    (h : CertG k w g) (he : CGS.simTodo (simple T) k lim ordC ordB fuel g = .go g') : CertG k w g' := by
  induction fuel generalizing g with
  | zero => cases he
  | succ fuel ih =>
    unfold CGS.simTodo at he
    split at he
    · cases he; exact h
    · split at he
      · next g1 h1 =>
        refine ih (simAll_cert hT hk hw lim hB (ordC g.todo) (fun c hc => h.todo c ((hC _ _).1 hc))
          (g := { g with todo := [] }) ⟨(fun c hc => by cases hc), h.trans, fun d => ?_, fun d => ?_⟩ h1) he
        · have := h.cont d; cases d <;> exact this
        · have := h.keys d; cases d <;> exact this
      · next hr => exact absurd he (hr g')

theorem recheck_cert {k w : Nat} (hk : 0 < k) (hw : 2 * k ≤ w)
    {ordB : List (List Nat) → List (List Nat)} (hB : ∀ l x, x ∈ ordB l ↔ x ∈ l)
    (cs : List (Cfg Nat (Option Nat))) {g g' : G} {m m' : Bool} (h : CertG k w g)
    (he : CGS.recheck k ordB cs g m = some (g', m')) : CertG k w g' := by
  induction cs generalizing g m with
  | nil => cases he; exact h
  | cons c cs ih =>
    unfold CGS.recheck at he
    split at he
    · cases he
    · next g1 m1 hu => exact ih (updateSet_cert hk hw hB h hu) he

/-- what is known after success -/
structure Success (T : Table) (k w : Nat) (g : G) : Prop where
  closed : Closed T k w g
  inv : Inv T k w [] g
  start : ∃ t, Py.dget g.trans (Cfg.new k (some 0) .R (List.replicate w 0)) = some t
  cert : CertG k w g

theorem runLoop_success {T : Table} (hT : Printable T) {k w : Nat} (hk : 0 < k) (hw : 2 * k ≤ w) (lim : Lim)
    {ordC : List (Cfg Nat (Option Nat)) → List (Cfg Nat (Option Nat))} (hC : ∀ l x, x ∈ ordC l ↔ x ∈ l)
    {ordB : List (List Nat) → List (List Nat)} (hB : ∀ l x, x ∈ ordB l ↔ x ∈ l)
    (fuel : Nat) {g g' : G} (I : Inv T k w [] g) (hG : CertG k w g)
    (he : CGS.runLoop (simple T) k lim ordC ordB fuel g = some (g', true)) : Success T k w g' := by
  induction fuel generalizing g with
  | zero => cases he
  | succ fuel ih =>
    unfold CGS.runLoop at he
    simp only at he
    have I0 : Inv T k w [] { g with iters := g.iters + 1 } := ⟨I.todo, I.pend, I.trans, I.len, I.blank, I.start⟩
    have G0 : CertG k w { g with iters := g.iters + 1 } :=
      ⟨hG.todo, hG.trans, fun d => by have := hG.cont d; cases d <;> exact this,
        fun d => by have := hG.keys d; cases d <;> exact this⟩
    have S := simTodo_spec hk hw lim hC hB (lim.steps + 2) _ I0 (by simp only; omega)
    have S' := fun g1 => simTodo_cert (g' := g1) hT hk hw lim hC hB (lim.steps + 2) G0
    revert S S' he
    generalize CGS.simTodo (simple T) k lim ordC ordB (lim.steps + 2) _ = r
    cases r with
    | raise => intro he; cases he
    | fail g1 => intro he; cases he
    | go g1 =>
      rintro he ⟨v1, v2, v3⟩ S'
      have G1 := S' g1 rfl
      obtain ⟨g2, m, u1, u2, u3, u4⟩ := recheck_spec hk hw hB (ordC (g1.trans.map (·.1))) g1 false v1 (by
        intro c hc
        rw [hC] at hc
        rw [List.mem_map] at hc
        obtain ⟨⟨c', t⟩, hmem, rfl⟩ := hc
        have : ∃ t', Py.dget g1.trans c' = some t' := by
          unfold Py.dget
          cases hfind : g1.trans.find? (fun e => e.1 == c') with
          | some e => exact ⟨e.2, rfl⟩
          | none =>
            rw [List.find?_eq_none] at hfind
            have := hfind _ hmem
            simp at this
        exact this)
      have G2 := recheck_cert hk hw hB _ G1 u1
      simp only at he
      rw [u1] at he
      simp only at he
      cases m with
      | false =>
        simp only [Bool.false_eq_true, not_false_eq_true, if_true, Option.some.injEq, Prod.mk.injEq, and_true] at he
        subst he
        obtain ⟨-, e, hcl⟩ := u4 rfl
        subst e
        have hkeys : ∀ c t, Py.dget g2.trans c = some t → c ∈ ordC (g2.trans.map (·.1)) := by
          intro c t h
          rw [hC, List.mem_map]
          unfold Py.dget at h
          rw [Option.map_eq_some_iff] at h
          obtain ⟨e, he, -⟩ := h
          have hk := List.find?_some he
          exact ⟨e, List.mem_of_find?_eq_some he, by simpa using hk⟩
        refine ⟨⟨fun c t h => ⟨(v1.trans c t h).2.1, (v1.trans c t h).2.2⟩,
          fun c t h hr => (hcl c (hkeys c t h) t h hr).edge, fun c t h hr => (hcl c (hkeys c t h) t h hr).back,
          fun c t h hr f hff => ?_⟩, v1, ?_, G1⟩
        · rcases (hcl c (hkeys c t h) t h hr).front f hff with h' | h'
          · exact h'
          · rw [v3] at h'; cases h'
        · rcases v1.start with h | h | h
          · exact h
          · rw [v3] at h; cases h
          · cases h
      | true =>
        simp only [not_true_eq_false, if_false] at he
        split at he
        · simp at he
        · exact ih u2 G2 he

theorem init_cert (T : Table) {k w : Nat} (hk : 0 < k) (hw : 2 * k ≤ w) : CertG k w (CGS.init (simple T) k w) := by
  have hz : ∀ n, Digit (List.replicate n 0) := fun n a ha => by rw [List.eq_of_mem_replicate ha]; omega
  refine ⟨fun c hc => ?_, (fun e he => by cases he), fun d e he => ?_, fun d => ?_⟩
  · have : c = Cfg.new k (some 0) .R (List.replicate w 0) := List.mem_singleton.1 hc
    subst this
    exact ⟨by simp [Cfg.new], by simp [Cfg.new]; omega, by simp [Cfg.new]; omega, hz w, 0, rfl, by omega⟩
  · have : e = (List.replicate k 0, [List.replicate k 0]) := by
      cases d <;> exact List.mem_singleton.1 he
    subst this
    exact ⟨hz k, fun x hx => by rw [List.mem_singleton.1 hx]; exact ⟨hz k, by simp⟩⟩
  · cases d <;> simp [Py.NodupKeys, CGS.init, CGS.cont]

theorem run_success {T : Table} (hT : Printable T) {k w : Nat} (hk : 0 < k) (hw : 2 * k ≤ w) (lim : Lim)
    {ordC : List (Cfg Nat (Option Nat)) → List (Cfg Nat (Option Nat))} (hC : ∀ l x, x ∈ ordC l ↔ x ∈ l)
    {ordB : List (List Nat) → List (List Nat)} (hB : ∀ l x, x ∈ ordB l ↔ x ∈ l) {g : G}
    (he : CGS.run (simple T) k w lim ordC ordB = some (g, true)) : Success T k w g :=
  runLoop_success hT hk hw lim hC hB _ (init_inv T hk hw) (init_cert T hk hw) he

end Model.CPS
