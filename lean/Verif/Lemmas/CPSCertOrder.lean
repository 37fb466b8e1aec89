import Verif.Lemmas.CPSCertMean
import Verif.Lemmas.CPSCertSort

/-!
# A successful run ends with the least closed set, whatever the order and the limits
-/

namespace Model.CPS
open Spec Spec.CPSCert

/-! ## Simulations with different limits -/

/-- a simulation that came to an end -/
def Ended (t : Trans (List Nat) (Option Nat)) : Prop := t.cond = .running ∨ t.cond = .infRepeat

theorem limIter_agree (T : Table) (m m' : Nat) (s : LimLoop Nat (Option Nat)) :
    limIter (simple T) m s = limIter (simple T) m' s ∨ (∃ t, limIter (simple T) m s = .inr t ∧ ¬ Ended t) ∨
      ∃ t, limIter (simple T) m' s = .inr t ∧ ¬ Ended t := by
  unfold limIter
  cases Py.get s.tape s.pos with
  | none => exact Or.inl rfl
  | some a =>
    simp only
    by_cases h1 : ((simple T).trans a s.st s.dir).cond = .raised
    · exact Or.inl (by simp only [if_pos h1])
    · simp only [if_neg h1]
      cases Py.set s.tape s.pos ((simple T).trans a s.st s.dir).sym with
      | none => exact Or.inl rfl
      | some tape =>
        simp only
        split
        · exact Or.inl rfl
        · by_cases h2 : s.loops + 1 > m
          · simp only [if_pos h2]
            exact Or.inr (Or.inl ⟨_, rfl, by simp [Ended]⟩)
          · by_cases h3 : s.loops + 1 > m'
            · simp only [if_pos h3]
              exact Or.inr (Or.inr ⟨_, rfl, by simp [Ended]⟩)
            · exact Or.inl (by simp only [if_neg h2, if_neg h3])

theorem limLoop_agree (T : Table) (m m' : Nat) (k k' : Nat) (s : LimLoop Nat (Option Nat))
    (h : Ended (limLoop (simple T) m k s)) (h' : Ended (limLoop (simple T) m' k' s)) :
    limLoop (simple T) m k s = limLoop (simple T) m' k' s := by
  induction k generalizing k' s with
  | zero => rcases h with h | h <;> cases h
  | succ k ih =>
    cases k' with
    | zero => rcases h' with h' | h' <;> cases h'
    | succ k' =>
      unfold limLoop at h h' ⊢
      rcases limIter_agree T m m' s with e | ⟨t, e, ht⟩ | ⟨t, e, ht⟩
      · rw [← e] at h' ⊢
        cases hi : limIter (simple T) m s with
        | inl s' =>
          rw [hi] at h h'
          exact ih k' s' h h'
        | inr t => rfl
      · rw [e] at h; exact absurd h ht
      · rw [e] at h'; exact absurd h' ht

theorem simLimited_agree (T : Table) (m m' : Nat) (st : Option Nat) (tape : List Nat) (pos : Int) (d : Dir)
    (h : Ended (simLimited (simple T) st tape pos d m)) (h' : Ended (simLimited (simple T) st tape pos d m')) :
    simLimited (simple T) st tape pos d m = simLimited (simple T) st tape pos d m' :=
  limLoop_agree T m m' _ _ _ h h'

/-! ## Everything found is in every closed set -/

def Known (g : G) (c : Cfg Nat (Option Nat)) : Prop := ∃ t, Py.dget g.trans c = some t

structure Within (gs g : G) : Prop where
  todo : ∀ c ∈ g.todo, Known gs c
  known : ∀ e ∈ g.trans, Known gs e.1
  same : ∀ e ∈ g.trans, e.2.cond = .running → Py.dget gs.trans e.1 = some e.2
  dsts : ∀ d src dst, dst ∈ g.dsts d src → dst ∈ gs.dsts d src
  once : ∀ d, ∀ e ∈ g.cont d, e.2.Nodup
  keys : Py.NodupKeys g.trans

theorem dsts_nodup {g : G} (h : ∀ d, ∀ e ∈ g.cont d, e.2.Nodup) (d : Dir) (src : List Nat) : (g.dsts d src).Nodup := by
  unfold CGS.dsts
  cases hg : Py.dget (g.cont d) src with
  | none => exact List.nodup_nil
  | some v =>
    unfold Py.dget at hg
    rw [Option.map_eq_some_iff] at hg
    obtain ⟨e, he, rfl⟩ := hg
    exact h d e (List.mem_of_find?_eq_some he)

theorem addEdge_within {gs g : G} (h : Within gs g) {d : Dir} {src dst : List Nat} (hd : dst ∈ gs.dsts d src) :
    Within gs (g.addEdge d src dst).1 := by
  have hS := addEdge_same g d src dst
  refine ⟨by rw [hS.todo]; exact h.todo, by rw [hS.trans]; exact h.known, by rw [hS.trans]; exact h.same,
    fun d' src' dst' hm => ?_, ?_, by rw [hS.trans]; exact h.keys⟩
  · rcases (dsts_addEdge g d src dst d' src' dst').1 hm with hm | ⟨rfl, rfl, rfl⟩
    · exact h.dsts _ _ _ hm
    · exact hd
  · unfold CGS.addEdge
    split
    · next hn =>
      intro d' e he
      by_cases hdd : d' = d
      · subst hdd
        have : e ∈ Py.dset (g.cont d') src (g.dsts d' src ++ [dst]) := by cases d' <;> exact he
        rcases cert_mem_dset this with rfl | h'
        · exact List.nodup_append.2 ⟨dsts_nodup h.once d' src, by simp, by
            intro a ha b hb; rw [List.mem_singleton.1 hb]; exact fun e => hn (e ▸ ha)⟩
        · exact h.once d' e h'
      · have : e ∈ g.cont d' := by
          cases d <;> cases d' <;> first | exact absurd rfl hdd | exact he
        exact h.once d' e this
    · exact h.once

theorem addEdges_within (l : List (List Nat)) {gs g : G} (h : Within gs g) {d : Dir} {src : List Nat}
    (hl : ∀ x ∈ l, x ∈ gs.dsts d src) : Within gs (g.addEdges d src l).1 := by
  induction l generalizing g with
  | nil => exact h
  | cons x l ih =>
    rw [addEdges_cons]
    exact ih (addEdge_within h (hl x List.mem_cons_self)) (fun y hy => hl y (List.mem_cons_of_mem _ hy))

theorem addConfig_within {gs g : G} (h : Within gs g) {c : Cfg Nat (Option Nat)} (hc : Known gs c) :
    Within gs (g.addConfig c).1 := by
  unfold CGS.addConfig
  split
  · refine ⟨fun x hx => ?_, h.known, h.same, fun d => ?_, fun d => ?_, h.keys⟩
    · rcases List.mem_append.1 hx with hx | hx
      · exact h.todo x hx
      · rw [List.mem_singleton.1 hx]; exact hc
    · have := h.dsts d; cases d <;> exact this
    · have := h.once d; cases d <;> exact this
  · exact h

theorem addFronts_within {k : Nat} (l : List (List Nat)) {gs g : G} (h : Within gs g) {c : Cfg Nat (Option Nat)}
    (hl : ∀ f ∈ l, Known gs (c.shiftFront k f)) : Within gs (g.addFronts k c l).1 := by
  induction l generalizing g with
  | nil => exact h
  | cons x l ih =>
    rw [addFronts_cons]
    exact ih (addConfig_within h (hl x List.mem_cons_self)) (fun y hy => hl y (List.mem_cons_of_mem _ hy))

theorem updateSet_within {T : Table} {k w : Nat} {gs : G} (S : Closed T k w gs)
    {ordB : List (List Nat) → List (List Nat)} (hB : ∀ l x, x ∈ ordB l ↔ x ∈ l) {g g' : G} {m : Bool}
    (h : Within gs g) {old : Cfg Nat (Option Nat)} (he : g.updateSet k ordB old = some (g', m)) : Within gs g' := by
  unfold CGS.updateSet at he
  cases ht : Py.dget g.trans old with
  | none => rw [ht] at he; cases he
  | some t =>
    rw [ht] at he
    simp only at he
    have hmem := (Py.mem_iff_dget h.keys old t).2 ht
    split at he
    · next hc =>
      have hs := h.same _ hmem hc
      simp only at hs
      cases he
      have h1 := addEdge_within h (S.edge old t hs hc)
      have h2 := addEdges_within (ordB ((g.addEdge t.dir.other ((postConfig t).getBlock k t.dir.other 1)
        ((postConfig t).getBlock k t.dir.other 0)).1.dsts t.dir.other (old.getBlock k t.dir.other 0))) h1
        (d := t.dir.other) (src := (postConfig t).getBlock k t.dir.other 0)
        (fun x hx => S.back old t hs hc x (h1.dsts _ _ _ ((hB _ _).1 hx)))
      exact addFronts_within _ h2 (fun f hf => S.front old t hs hc f (h2.dsts _ _ _ ((hB _ _).1 hf)))
    · cases he; exact h

theorem simConfig_within {T : Table} {k w : Nat} {gs : G} (S : Closed T k w gs) (lim : Lim) {g : G}
    (h : Within gs g) {c : Cfg Nat (Option Nat)} (hc : Known gs c) : Within gs (g.simConfig (simple T) lim c).1 := by
  refine ⟨h.todo, fun e he => ?_, fun e he hr => ?_, fun d => ?_, fun d => ?_, Py.nodup_dset h.keys _ _⟩
  · rcases cert_mem_dset (d := g.trans) he with rfl | he
    · exact hc
    · exact h.known e he
  · rcases cert_mem_dset (d := g.trans) he with rfl | he
    · obtain ⟨t, ht⟩ := hc
      obtain ⟨⟨m, hm⟩, hcond⟩ := S.sim c t ht
      simp only at hr ⊢
      rw [ht, hm]
      congr 1
      exact simLimited_agree T _ _ _ _ _ _ (hm ▸ hcond) (Or.inl hr)
    · exact h.same e he hr
  · have := h.dsts d; cases d <;> exact this
  · have := h.once d; cases d <;> exact this

theorem simAll_within {T : Table} {k w : Nat} {gs : G} (S : Closed T k w gs) (lim : Lim)
    {ordB : List (List Nat) → List (List Nat)} (hB : ∀ l x, x ∈ ordB l ↔ x ∈ l)
    (cs : List (Cfg Nat (Option Nat))) (hcs : ∀ c ∈ cs, Known gs c) {g g' : G} (h : Within gs g)
    (he : CGS.simAll (simple T) k lim ordB cs g = .go g') : Within gs g' := by
  induction cs generalizing g with
  | nil => cases he; exact h
  | cons c cs ih =>
    unfold CGS.simAll at he
    have h1 := simConfig_within S lim h (hcs c List.mem_cons_self)
    revert he
    rcases hsc : g.simConfig (simple T) lim c with ⟨g1, cond⟩
    rw [hsc] at h1
    simp only at h1 ⊢
    intro he
    have hcs' : ∀ c ∈ cs, Known gs c := fun c hc => hcs c (List.mem_cons_of_mem _ hc)
    split at he
    · cases he
    · split at he
      · split at he
        · cases he
        · next g2 m hu => exact ih hcs' (updateSet_within S hB h1 hu) he
      · split at he
        · cases he
        · exact ih hcs' h1 he

theorem simTodo_within {T : Table} {k w : Nat} {gs : G} (S : Closed T k w gs) (lim : Lim)
    {ordC : List (Cfg Nat (Option Nat)) → List (Cfg Nat (Option Nat))} (hC : ∀ l x, x ∈ ordC l ↔ x ∈ l)
    {ordB : List (List Nat) → List (List Nat)} (hB : ∀ l x, x ∈ ordB l ↔ x ∈ l) (fuel : Nat) {g g' : G}
    (h : Within gs g) (he : CGS.simTodo (simple T) k lim ordC ordB fuel g = .go g') : Within gs g' := by
  induction fuel generalizing g with
  | zero => cases he
  | succ fuel ih =>
    unfold CGS.simTodo at he
    split at he
    · cases he; exact h
    · split at he
      · next g1 h1 =>
        refine ih (simAll_within S lim hB (ordC g.todo) (fun c hc => h.todo c ((hC _ _).1 hc))
          (g := { g with todo := [] }) ⟨(fun c hc => by cases hc), h.known, h.same, fun d => ?_, fun d => ?_, h.keys⟩ h1) he
        · have := h.dsts d; cases d <;> exact this
        · have := h.once d; cases d <;> exact this
      · next hr => exact absurd he (hr g')

theorem recheck_within {T : Table} {k w : Nat} {gs : G} (S : Closed T k w gs)
    {ordB : List (List Nat) → List (List Nat)} (hB : ∀ l x, x ∈ ordB l ↔ x ∈ l)
    (cs : List (Cfg Nat (Option Nat))) {g g' : G} {m m' : Bool} (h : Within gs g)
    (he : CGS.recheck k ordB cs g m = some (g', m')) : Within gs g' := by
  induction cs generalizing g m with
  | nil => cases he; exact h
  | cons c cs ih =>
    unfold CGS.recheck at he
    split at he
    · cases he
    · next g1 m1 hu => exact ih (updateSet_within S hB h hu) he

theorem runLoop_within {T : Table} {k w : Nat} {gs : G} (S : Closed T k w gs) (lim : Lim)
    {ordC : List (Cfg Nat (Option Nat)) → List (Cfg Nat (Option Nat))} (hC : ∀ l x, x ∈ ordC l ↔ x ∈ l)
    {ordB : List (List Nat) → List (List Nat)} (hB : ∀ l x, x ∈ ordB l ↔ x ∈ l)
    (fuel : Nat) {g g' : G} (h : Within gs g)
    (he : CGS.runLoop (simple T) k lim ordC ordB fuel g = some (g', true)) : Within gs g' := by
  induction fuel generalizing g with
  | zero => cases he
  | succ fuel ih =>
    unfold CGS.runLoop at he
    simp only at he
    have h0 : Within gs { g with iters := g.iters + 1 } :=
      ⟨h.todo, h.known, h.same, fun d => by have := h.dsts d; cases d <;> exact this,
        fun d => by have := h.once d; cases d <;> exact this, h.keys⟩
    split at he
    · cases he
    · cases he
    · next g1 h1 =>
      have H1 := simTodo_within S lim hC hB _ h0 h1
      split at he
      · cases he
      · next g2 m h2 =>
        have H2 := recheck_within S hB _ H1 h2
        split at he
        · cases he; exact H2
        · split at he
          · simp at he
          · exact ih H2 he

theorem run_within {T : Table} {k w : Nat} {gs : G} (S : Success T k w gs) (lim : Lim)
    {ordC : List (Cfg Nat (Option Nat)) → List (Cfg Nat (Option Nat))} (hC : ∀ l x, x ∈ ordC l ↔ x ∈ l)
    {ordB : List (List Nat) → List (List Nat)} (hB : ∀ l x, x ∈ ordB l ↔ x ∈ l) {g : G}
    (he : CGS.run (simple T) k w lim ordC ordB = some (g, true)) : Within gs g := by
  refine runLoop_within S.closed lim hC hB _ ⟨fun c hc => ?_, (fun e he => by cases he), (fun e he => by cases he),
    fun d src dst hm => ?_, fun d e he => ?_, by simp [Py.NodupKeys, CGS.init]⟩ he
  · have : c = Cfg.new k (some 0) .R (List.replicate w 0) := List.mem_singleton.1 hc
    subst this
    exact S.start
  · unfold CGS.dsts at hm
    have : (CGS.init (simple T) k w).cont d = Py.dset [] (List.replicate k 0) [List.replicate k 0] := by
      cases d <;> rfl
    rw [this, Py.dget_dset] at hm
    split at hm
    · next h => subst h; rw [List.mem_singleton.1 hm]; exact S.inv.blank d
    · cases hm
  · have : e = (List.replicate k 0, [List.replicate k 0]) := by
      cases d <;> exact List.mem_singleton.1 he
    subst this
    simp

/-! ## The same text -/

theorem pairs_nodup {k w : Nat} {g gs : G} (h : CertG k w g) (N : Within gs g) (d : Dir) :
    ((g.cont d).flatMap fun e => e.2.map fun dst => (e.1, dst)).Nodup := by
  rw [List.nodup_flatMap]
  refine ⟨fun e he => (N.once d e he).map fun a b hab => (Prod.mk.inj hab).2, ?_⟩
  have := h.keys d
  unfold Py.NodupKeys at this
  rw [List.Nodup, List.pairwise_map] at this
  refine this.imp fun {a b} hab x hx hy => ?_
  obtain ⟨_, _, rfl⟩ := List.mem_map.1 hx
  obtain ⟨_, _, e⟩ := List.mem_map.1 hy
  exact hab (Prod.mk.inj e).1.symm

theorem edgeList_nodup {k w : Nat} {g gs : G} (h : CertG k w g) (N : Within gs g) (d : Dir) : (g.edgeList d).Nodup :=
  (sortBy_perm _ _).nodup_iff.2 (pairs_nodup h N d)

theorem edgeList_eq {k w : Nat} {g g' gs gs' : G} (h : CertG k w g) (h' : CertG k w g') (N : Within gs g)
    (N' : Within gs' g') (hm : ∀ d src dst, dst ∈ g.dsts d src ↔ dst ∈ g'.dsts d src) (d : Dir) :
    g.edgeList d = g'.edgeList d := by
  refine sortBy_unique edgeLe_total (pairs_nodup h N d) (pairs_nodup h' N' d) (fun ⟨src, dst⟩ => ?_)
  have e1 := mem_edgeList h d src dst
  have e2 := mem_edgeList h' d src dst
  unfold CGS.edgeList at e1 e2
  rw [mem_sortBy] at e1 e2
  rw [e1, e2]; exact hm d src dst

theorem win_inj {w : Nat} {c c' : Cfg Nat (Option Nat)} (h : CertC w c) (h' : CertC w c') (e : c.win = c'.win) :
    c = c' := by
  obtain ⟨q, hq, -⟩ := h.st
  obtain ⟨q', hq', -⟩ := h'.st
  have l1 := h.lo; have l2 := h.hi; have l3 := h.len
  have m1 := h'.lo; have m2 := h'.hi; have m3 := h'.len
  unfold Cfg.win at e
  rw [Window.mk.injEq] at e
  obtain ⟨e1, e2, e3, e4⟩ := e
  have hwin : c.window = c'.window := by
    rw [← List.take_append_drop c.cut c.window, e1, e4, List.take_append_drop]
  have hcut : c.cut = c'.cut := by
    have := congrArg List.length e1
    simp only [List.length_take] at this
    unfold Cfg.cut at this ⊢
    cases hd : c.dir <;> cases hd' : c'.dir <;> simp only [hd, hd'] at this ⊢ <;> omega
  cases c; cases c'
  simp only at *
  subst hq hq' e3 hwin
  simp only [Option.getD_some] at e2
  subst e2
  unfold Cfg.cut at hcut
  simp only at hcut
  rename_i dir _ _ _
  congr 1
  cases dir <;> simp only at hcut <;> omega

theorem mapO_nodup {α β γ : Type} (f : α → Option β) (key : α → γ) (l : List α) (ys : List β)
    (he : Py.mapO f l = some ys) (hn : (l.map key).Nodup)
    (hi : ∀ x ∈ l, ∀ x' ∈ l, ∀ y, f x = some y → f x' = some y → key x = key x') : ys.Nodup := by
  induction l generalizing ys with
  | nil => cases he; exact List.nodup_nil
  | cons x l ih =>
    unfold Py.mapO at he
    cases hx : f x with
    | none => rw [hx] at he; simp at he
    | some y =>
      cases hl : Py.mapO f l with
      | none => rw [hx, hl] at he; simp at he
      | some ys' =>
        rw [hx, hl] at he
        cases he
        rw [List.map_cons, List.nodup_cons] at hn
        refine List.nodup_cons.2 ⟨fun hm => ?_, ih ys' hl hn.2 (fun a ha b hb => hi a (List.mem_cons_of_mem _ ha) b
          (List.mem_cons_of_mem _ hb))⟩
        have key2 : ∀ (l : List α) (ys : List β), Py.mapO f l = some ys → ∀ y ∈ ys, ∃ x ∈ l, f x = some y := by
          intro l
          induction l with
          | nil => intro ys h; cases h; simp
          | cons a l ih2 =>
            intro ys h y hy
            unfold Py.mapO at h
            cases ha : f a with
            | none => rw [ha] at h; simp at h
            | some b =>
              cases hb : Py.mapO f l with
              | none => rw [ha, hb] at h; simp at h
              | some bs =>
                rw [ha, hb] at h
                cases h
                rcases List.mem_cons.1 hy with rfl | hy
                · exact ⟨a, List.mem_cons_self, ha⟩
                · obtain ⟨z, hz, hfz⟩ := ih2 bs hb y hy
                  exact ⟨z, List.mem_cons_of_mem _ hz, hfz⟩
        obtain ⟨z, hz, hfz⟩ := key2 l ys' hl y hm
        have := hi x List.mem_cons_self z (List.mem_cons_of_mem _ hz) y hx hfz
        exact hn.1 (this ▸ List.mem_map_of_mem hz)

theorem configTexts_eq {k w : Nat} {g g' gs gs' : G} (h : CertG k w g) (h' : CertG k w g') (N : Within gs g)
    (N' : Within gs' g') (hm : ∀ c, Known g c ↔ Known g' c) : g.configTexts = g'.configTexts := by
  have ex : ∀ {gs g : G}, CertG k w g → Within gs g → ∃ ts, Py.mapO (fun e => e.1.text) g.trans = some ts ∧ ts.Nodup ∧
      ∀ t, t ∈ ts ↔ ∃ c, Known g c ∧ c.text = some t := by
    intro gs g h N
    obtain ⟨ts, m1, m2⟩ := mapO_mem (fun e : Cfg Nat (Option Nat) × Trans (List Nat) (Option Nat) => e.1.text) g.trans
      (fun e he => by obtain ⟨t, h, -⟩ := text_read (h.trans e he).1; exact ⟨t, h⟩)
    refine ⟨ts, m1, mapO_nodup _ Prod.fst _ _ m1 N.keys (fun x hx x' hx' y h1 h2 => ?_), fun t => ?_⟩
    · obtain ⟨t, a1, -, a3⟩ := text_read (h.trans x hx).1
      obtain ⟨t', b1, -, b3⟩ := text_read (h.trans x' hx').1
      rw [h1] at a1; rw [h2] at b1
      cases a1; cases b1
      rw [a3] at b3
      exact win_inj (h.trans x hx).1 (h.trans x' hx').1 (Option.some.inj b3)
    · rw [m2]
      constructor
      · rintro ⟨e, he, ht⟩
        exact ⟨e.1, known_iff.2 ⟨e, he, rfl⟩, ht⟩
      · rintro ⟨c, hc, ht⟩
        obtain ⟨e, he, rfl⟩ := known_iff.1 hc
        exact ⟨e, he, ht⟩
  obtain ⟨ts, a1, a2, a3⟩ := ex h N
  obtain ⟨ts', b1, b2, b3⟩ := ex h' N'
  unfold CGS.configTexts
  rw [a1, b1, Option.map_some, Option.map_some]
  congr 1
  refine sortBy_unique charLe_total a2 b2 (fun t => ?_)
  rw [a3, b3]
  exact exists_congr fun c => and_congr (hm c) Iff.rfl

theorem text_unique {T : Table} {k w : Nat} {g g' : G} (S : Success T k w g) (S' : Success T k w g')
    (N : Within g' g) (N' : Within g g') : savaskCert g true = savaskCert g' true := by
  have hd : ∀ d src dst, dst ∈ g.dsts d src ↔ dst ∈ g'.dsts d src := fun d src dst => ⟨N.dsts _ _ _, N'.dsts _ _ _⟩
  have hk : ∀ c, Known g c ↔ Known g' c := fun c =>
    ⟨fun h => by obtain ⟨e, he, rfl⟩ := known_iff.1 h; exact N.known e he,
      fun h => by obtain ⟨e, he, rfl⟩ := known_iff.1 h; exact N'.known e he⟩
  unfold savaskCert
  rw [configTexts_eq S.cert S'.cert N N' hk, edgeList_eq S.cert S'.cert N N' hd .L,
    edgeList_eq S.cert S'.cert N N' hd .R]

end Model.CPS
