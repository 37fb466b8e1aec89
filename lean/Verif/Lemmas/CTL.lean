import Verif.Model.CTL
import Verif.Lemmas.Simulator

namespace Model.CTL
open Spec
set_option linter.unusedSectionVars false
variable {σ S : Type} [DecidableEq σ] [DecidableEq S]

/-! ## Tables -/

/-- `x` is in the given set of the entry of `k` -/
def mem (t : Tab σ S) (k : S × Dir) (d : Dir) (s : Slot) (x : σ) : Prop :=
  ∃ v, Py.dget t k = some v ∧ x ∈ v.get d s

def has (t : Tab σ S) (k : S × Dir) : Prop := ∃ v, Py.dget t k = some v

structure Le (t u : Tab σ S) : Prop where
  has : ∀ k, has t k → has u k
  mem : ∀ k d s x, mem t k d s x → mem u k d s x

theorem Le.refl (t : Tab σ S) : Le t t := ⟨fun _ h => h, fun _ _ _ _ h => h⟩
theorem Le.trans {t u v : Tab σ S} (h : Le t u) (h' : Le u v) : Le t v :=
  ⟨fun k hk => h'.has k (h.has k hk), fun k d s x hm => h'.mem k d s x (h.mem k d s x hm)⟩

omit [DecidableEq S] in
theorem mem_union (s xs : List σ) (x : σ) : x ∈ union s xs ↔ x ∈ s ∨ x ∈ xs := by
  unfold union
  induction xs generalizing s with
  | nil => simp
  | cons y ys ih =>
    rw [List.foldl_cons, ih, Py.mem_sadd]
    simp only [List.mem_cons]
    tauto

omit [DecidableEq S] in
theorem mem_add (v : Sets σ) (d d' : Dir) (s s' : Slot) (xs : List σ) (x : σ) :
    x ∈ (v.add d s xs).get d' s' ↔ x ∈ v.get d' s' ∨ (d' = d ∧ s' = s ∧ x ∈ xs) := by
  cases d <;> cases d' <;> cases s <;> cases s' <;>
    simp [Sets.add, Sets.get, Sets.side, Side.add, Side.get, mem_union]

theorem upd_le (t : Tab σ S) (k : S × Dir) (d : Dir) (s : Slot) (xs : List σ) : Le t (upd t k d s xs) := by
  constructor
  · rintro k' ⟨v, hv⟩
    unfold has upd
    rw [Py.dget_dset]
    split
    · exact ⟨_, rfl⟩
    · exact ⟨v, hv⟩
  · rintro k' d' s' x ⟨v, hv, hx⟩
    unfold mem upd
    rw [Py.dget_dset]
    split
    · next h =>
      refine ⟨_, rfl, ?_⟩
      subst h
      rw [mem_add, hv]
      exact Or.inl hx
    · exact ⟨v, hv, hx⟩

theorem upd_has (t : Tab σ S) (k : S × Dir) (d : Dir) (s : Slot) (xs : List σ) : has (upd t k d s xs) k := by
  unfold has upd
  rw [Py.dget_dset, if_pos rfl]
  exact ⟨_, rfl⟩

theorem upd_mem (t : Tab σ S) (k : S × Dir) (d : Dir) (s : Slot) {xs : List σ} {x : σ} (hx : x ∈ xs) :
    mem (upd t k d s xs) k d s x := by
  unfold mem upd
  rw [Py.dget_dset, if_pos rfl]
  exact ⟨_, rfl, (mem_add _ _ _ _ _ _ _).2 (Or.inr ⟨rfl, rfl, hx⟩)⟩

omit [DecidableEq σ] [DecidableEq S] in
/-- folding an inflationary function -/
theorem foldl_le {α β : Type} (le : β → β → Prop) (refl : ∀ b, le b b)
    (trans : ∀ a b c, le a b → le b c → le a c) (f : β → α → β) (infl : ∀ b a, le b (f b a)) (l : List α) (b : β) :
    le b (l.foldl f b) ∧ ∀ a ∈ l, ∃ b1, le (f b1 a) (l.foldl f b) := by
  induction l generalizing b with
  | nil => exact ⟨refl b, fun a h => by cases h⟩
  | cons a l ih =>
    rw [List.foldl_cons]
    obtain ⟨h1, h2⟩ := ih (f b a)
    refine ⟨trans _ _ _ (infl b a) h1, fun a' h => ?_⟩
    rcases List.mem_cons.1 h with rfl | h
    · exact ⟨b, h1⟩
    · exact h2 a' h

omit [DecidableEq σ] [DecidableEq S] in
theorem foldlM_le {α β : Type} (le : β → β → Prop) (refl : ∀ b, le b b)
    (trans : ∀ a b c, le a b → le b c → le a c) (f : β → α → Option β)
    (infl : ∀ b a b', f b a = some b' → le b b') (l : List α) (b r : β) (h : l.foldlM f b = some r) :
    le b r ∧ ∀ a ∈ l, ∃ b1 b2, f b1 a = some b2 ∧ le b2 r := by
  induction l generalizing b with
  | nil => simp at h; subst h; exact ⟨refl b, fun a h => by cases h⟩
  | cons a l ih =>
    rw [List.foldlM_cons] at h
    cases hf : f b a with
    | none => rw [hf] at h; cases h
    | some b' =>
      rw [hf] at h
      obtain ⟨h1, h2⟩ := ih b' h
      refine ⟨trans _ _ _ (infl b a b' hf) h1, fun a' ha => ?_⟩
      rcases List.mem_cons.1 ha with rfl | ha
      · exact ⟨b, b', hf, h1⟩
      · exact h2 a' ha

theorem updAll_le (t : Tab σ S) (k : S × Dir) (old : Sets σ) (ds : List Dir) (ks : List Slot) :
    Le t (updAll t k old ds ks) :=
  (foldl_le Le Le.refl (fun _ _ _ => Le.trans) _ (fun _ _ =>
    (foldl_le Le Le.refl (fun _ _ _ => Le.trans) _ (fun _ _ => upd_le _ _ _ _ _) _ _).1) ds t).1

theorem updAll_mem (t : Tab σ S) (k : S × Dir) (old : Sets σ) {ds : List Dir} {ks : List Slot} {d : Dir}
    {s : Slot} (hd : d ∈ ds) (hs : s ∈ ks) :
    has (updAll t k old ds ks) k ∧ ∀ x, x ∈ old.get d s → mem (updAll t k old ds ks) k d s x := by
  obtain ⟨b1, h1⟩ := (foldl_le Le Le.refl (fun _ _ _ => Le.trans)
    (fun t d => ks.foldl (fun t s => upd t k d s (old.get d s)) t) (fun _ _ =>
    (foldl_le Le Le.refl (fun _ _ _ => Le.trans) _ (fun _ _ => upd_le _ _ _ _ _) _ _).1) ds t).2 d hd
  obtain ⟨b2, h2⟩ := (foldl_le Le Le.refl (fun _ _ _ => Le.trans)
    (fun t s => upd t k d s (old.get d s)) (fun _ _ => upd_le _ _ _ _ _) ks b1).2 s hs
  exact ⟨h1.has _ (h2.has _ (upd_has _ _ _ _ _)), fun x hx => h1.mem _ _ _ _ (h2.mem _ _ _ _ (upd_mem _ _ _ _ hx))⟩

omit [DecidableEq σ] in
theorem dget_entry {t : Tab σ S} {k : S × Dir} {v : Sets σ} (h : Py.dget t k = some v) : (k, v) ∈ t := by
  unfold Py.dget at h
  rw [Option.map_eq_some_iff] at h
  obtain ⟨e, he, rfl⟩ := h
  have := List.find?_some he
  have hk : e.1 = k := by simpa using this
  subst hk
  exact List.mem_of_find?_eq_some he

/-- inclusion of the sets in the slots `ks` -/
structure LeOn (ks : List Slot) (t u : Tab σ S) : Prop where
  has : ∀ k, has t k → has u k
  mem : ∀ k d s x, s ∈ ks → mem t k d s x → mem u k d s x

theorem complete_le (new table : Tab σ S) (ks : List Slot) : Le new (complete new table ks) :=
  (foldl_le Le Le.refl (fun _ _ _ => Le.trans) _ (fun _ _ => updAll_le _ _ _ _ _) table new).1

theorem complete_leOn (new table : Tab σ S) {ks : List Slot} (hk : ks ≠ []) :
    LeOn ks table (complete new table ks) := by
  have key := (foldl_le Le Le.refl (fun _ _ _ => Le.trans)
    (fun t (e : (S × Dir) × Sets σ) => updAll t e.1 e.2 [.L, .R] ks) (fun _ _ => updAll_le _ _ _ _ _) table new).2
  obtain ⟨s0, hs0⟩ := List.exists_mem_of_ne_nil ks hk
  constructor
  · rintro k ⟨v, hv⟩
    obtain ⟨b, hb⟩ := key _ (dget_entry hv)
    exact hb.has _ (updAll_mem b k v (d := .L) (by simp) hs0).1
  · rintro k d s x hs ⟨v, hv, hx⟩
    obtain ⟨b, hb⟩ := key _ (dget_entry hv)
    exact hb.mem _ _ _ _ ((updAll_mem b k v (d := d) (by cases d <;> simp) hs).2 x hx)

theorem tabEq_spec {t u : Tab σ S} (h : tabEq t u = true) :
    (∀ k, has u k → has t k) ∧ ∀ k d s x, mem u k d s x → mem t k d s x := by
  unfold tabEq at h
  rw [Bool.and_eq_true, List.all_eq_true, List.all_eq_true] at h
  obtain ⟨h1, h2⟩ := h
  have hhas : ∀ k, has u k → has t k := by
    rintro k ⟨v, hv⟩
    have := h2 _ (dget_entry hv)
    exact Option.isSome_iff_exists.1 this
  refine ⟨hhas, ?_⟩
  rintro k d s x ⟨v, hv, hx⟩
  obtain ⟨w, hw⟩ := hhas k ⟨v, hv⟩
  have := h1 _ (dget_entry hw)
  simp only [hv, Side.eqv, setEq, Bool.and_eq_true, List.all_eq_true, decide_eq_true_eq] at this
  refine ⟨w, hw, ?_⟩
  obtain ⟨⟨⟨l1, l2⟩, l3⟩, ⟨⟨r1, r2⟩, r3⟩⟩ := this
  cases d <;> cases s
  · exact l1.2 x hx
  · exact l2.2 x hx
  · exact l3.2 x hx
  · exact r1.2 x hx
  · exact r2.2 x hx
  · exact r3.2 x hx

/-- what success of the main loop means: a larger table closed under the round -/
theorem loop_spec {round : Tab σ S → Option (Tab σ S)} {ks : List Slot} (hk : ks ≠ []) (fuel : Nat)
    (t0 : Tab σ S) (h : loop round ks fuel t0 = true) :
    ∃ table new, LeOn ks t0 table ∧ round table = some new ∧ Le new (complete new table ks) ∧
      (∀ k, has new k → has table k) ∧ ∀ k d s x, mem new k d s x → mem table k d s x := by
  induction fuel generalizing t0 with
  | zero => simp [loop] at h
  | succ fuel ih =>
    unfold loop at h
    cases hr : round t0 with
    | none => rw [hr] at h; simp at h
    | some new =>
      rw [hr] at h
      simp only at h
      have hle := complete_le new t0 ks
      split at h
      · next he =>
        obtain ⟨e1, e2⟩ := tabEq_spec he
        exact ⟨t0, new, ⟨fun _ h => h, fun _ _ _ _ _ h => h⟩, hr, hle,
          fun k hk => e1 k (hle.has k hk), fun k d s x hm => e2 k d s x (hle.mem k d s x hm)⟩
      · obtain ⟨table, new', h1, h2⟩ := ih _ h
        have hc := complete_leOn new t0 hk
        exact ⟨table, new', ⟨fun k hk => h1.has k (hc.has k hk),
          fun k d s x hs hm => h1.mem k d s x hs (hc.mem k d s x hs hm)⟩, h2⟩

/-! ## Configurations -/

omit [DecidableEq σ] [DecidableEq S] in
theorem covered_never {T : Table} {M : Machine σ S} {Den TDen hs} (F : Follows T M Den TDen hs)
    (Cov : DC σ S → Prop)
    (step : ∀ c, Cov c → (M.trans c.front c.st c.dir).cond = .running ∧
      Cov (c.take (M.trans c.front c.st c.dir)))
    (c : DC σ S) (cfg : Config) (hd : Den c cfg) (hc : Cov c) : NeverHalts T cfg := by
  refine (recurs_never (P := fun cfg => ∃ c, Den c cfg ∧ Cov c) (fun _ => True) ?_ ?_ cfg ⟨c, hd, hc⟩).1
  · rintro cfg ⟨c, hd, -⟩; exact (F.live c cfg hd).1
  · rintro cfg ⟨c, hd, hc⟩
    obtain ⟨h1, h2⟩ := step c hc
    obtain ⟨h3, h4, -⟩ := F.run c cfg hd _ rfl h1
    exact ⟨_, h3, ⟨_, h4, h2⟩, fun _ _ _ _ => trivial⟩

theorem forall_dir (d0 : Dir) {P : Dir → Prop} (h1 : P d0) (h2 : P d0.other) : ∀ d, P d := by
  intro d; cases d <;> cases d0 <;> assumption

omit [DecidableEq σ] [DecidableEq S] in
theorem move_same (c : DC σ S) (sym : σ) (st : S) :
    (c.move sym st c.dir).side c.dir = (fun i => c.side c.dir (i + 1)) ∧
    (c.move sym st c.dir).side c.dir.other = cons sym (c.side c.dir.other) := by
  rw [take_rest, take_rest]
  unfold DC.rest
  cases c.dir <;> exact ⟨rfl, rfl⟩

omit [DecidableEq σ] [DecidableEq S] in
theorem move_turn (c : DC σ S) (sym : σ) (st : S) :
    (c.move sym st c.dir.other).side c.dir.other = c.side c.dir.other ∧
    (c.move sym st c.dir.other).side c.dir = cons sym (fun i => c.side c.dir (i + 1)) := by
  rw [take_rest, take_rest]
  unfold DC.rest
  cases c.dir <;> exact ⟨rfl, rfl⟩

theorem dir_cases (d e : Dir) : d = e ∨ d = e.other := by cases d <;> cases e <;> simp [Dir.other]

theorem runTrans_spec {M : Machine σ S} {a : σ} {k : S × Dir} {t : Trans σ S} (h : runTrans M a k = some t) :
    M.trans a k.1 k.2 = t ∧ t.cond = .running := by
  unfold runTrans at h
  simp only at h
  split at h
  · cases h
  · next hc => cases h; exact ⟨rfl, by simpa using hc⟩

omit [DecidableEq σ] [DecidableEq S] in
theorem tail_const (z : σ) : (fun i => (fun _ : Nat => z) (i + 1)) = fun _ => z := rfl

omit [DecidableEq σ] [DecidableEq S] in
theorem tail_cons (a : σ) (s : Nat → σ) : (fun i => cons a s (i + 1)) = s := rfl

omit [DecidableEq σ] [DecidableEq S] in
theorem bind_some {α β : Type} {x : Option α} {f : α → Option β} {r : β} (h : (x >>= f) = some r) :
    ∃ a, x = some a ∧ f a = some r := by
  cases x with
  | none => cases h
  | some a => exact ⟨a, rfl, h⟩

/-! ### CTL1 -/

def Cov1 (z : σ) (table : Tab σ S) (c : DC σ S) : Prop :=
  has table (c.st, c.dir) ∧
  ∀ d, ∃ l, c.side d = pre l (fun _ => z) ∧ ∀ x ∈ l, mem table (c.st, c.dir) d .A x

theorem ctl1A_infl {M : Machine σ S} {k old} {b b' : Tab σ S} {a : σ} (h : ctl1A M k old b a = some b') :
    Le b b' := by
  obtain ⟨t, ht, h⟩ := bind_some h
  cases h
  exact (updAll_le _ _ _ _ _).trans (upd_le _ _ _ _ _)

theorem ctl1Blank_infl {M : Machine σ S} {k old} {b b' : Tab σ S} (h : ctl1Blank M k old b = some b') :
    Le b b' := by
  obtain ⟨t, ht, h⟩ := bind_some h
  cases h
  exact (upd_le _ _ _ _ _).trans (upd_le _ _ _ _ _)

theorem ctl1_closed {M : Machine σ S} {table new : Tab σ S} (h : ctl1Round M table = some new)
    {k : S × Dir} {v : Sets σ} (hv : Py.dget table k = some v) :
    (∀ a ∈ v.get k.2 .A, ∃ b1 b2, ctl1A M k v b1 a = some b2 ∧ Le b2 new) ∧
    ∃ b1 b2, ctl1Blank M k v b1 = some b2 ∧ Le b2 new := by
  obtain ⟨-, h2⟩ := foldlM_le Le Le.refl (fun _ _ _ => Le.trans) _ (fun b a b' hf => by
    obtain ⟨b1, h1, h2⟩ := bind_some hf
    exact ((foldlM_le Le Le.refl (fun _ _ _ => Le.trans) _ (fun _ _ _ => ctl1A_infl) _ _ _ h1).1).trans
      (ctl1Blank_infl h2)) _ _ _ h
  obtain ⟨b1, b2, hf, hle⟩ := h2 _ (dget_entry hv)
  obtain ⟨b3, h3, h4⟩ := bind_some hf
  have hle' := (ctl1Blank_infl h4).trans hle
  refine ⟨fun a ha => ?_, b3, b2, h4, hle⟩
  obtain ⟨x, y, hx, hy⟩ := (foldlM_le Le Le.refl (fun _ _ _ => Le.trans) _ (fun _ _ _ => ctl1A_infl) _ _ _ h3).2 a ha
  exact ⟨x, y, hx, hy.trans hle'⟩

theorem cov1_step {M : Machine σ S} {table new : Tab σ S} (h : ctl1Round M table = some new)
    (hh : ∀ k, has new k → has table k) (hm : ∀ k d s x, mem new k d s x → mem table k d s x)
    (c : DC σ S) (hc : Cov1 M.initSym table c) :
    (M.trans c.front c.st c.dir).cond = .running ∧
      Cov1 M.initSym table (c.take (M.trans c.front c.st c.dir)) := by
  obtain ⟨⟨v, hv⟩, hside⟩ := hc
  obtain ⟨hA, hB⟩ := ctl1_closed h hv
  have hmem : ∀ d x, mem table (c.st, c.dir) d .A x → x ∈ v.get d .A := by
    rintro d x ⟨w, hw, hx⟩
    rw [hv] at hw; cases hw; exact hx
  obtain ⟨l, hl, hlA⟩ := hside c.dir
  obtain ⟨m, hm', hmA⟩ := hside c.dir.other
  generalize htr : M.trans c.front c.st c.dir = t
  -- it is enough to know these contributions
  suffices hsuff : t.cond = .running ∧ has new (t.st, t.dir) ∧ mem new (t.st, t.dir) t.dir.other .A t.sym ∧
      (∀ x ∈ l.tail, mem new (t.st, t.dir) c.dir .A x) ∧
      (∀ x ∈ m, mem new (t.st, t.dir) c.dir.other .A x) by
    obtain ⟨h1, h2, h3, h4, h5⟩ := hsuff
    refine ⟨h1, hh _ h2, ?_⟩
    have htail : (fun i => c.side c.dir (i + 1)) = pre l.tail (fun _ => M.initSym) := by
      rw [hl]; cases l <;> rfl
    show ∀ d, ∃ l', (c.move t.sym t.st t.dir).side d = _ ∧ ∀ x ∈ l', mem table (t.st, t.dir) d .A x
    rcases dir_cases t.dir c.dir with hd | hd
    · rw [hd] at h3 h4 h5 ⊢
      obtain ⟨e1, e2⟩ := move_same c t.sym t.st
      refine forall_dir c.dir ⟨l.tail, by rw [e1, htail], fun x hx => hm _ _ _ _ (h4 x hx)⟩
        ⟨t.sym :: m, by rw [e2, hm']; rfl, fun x hx => ?_⟩
      rcases List.mem_cons.1 hx with rfl | hx
      · exact hm _ _ _ _ h3
      · exact hm _ _ _ _ (h5 x hx)
    · rw [hd] at h3 h4 h5 ⊢
      obtain ⟨e1, e2⟩ := move_turn c t.sym t.st
      refine forall_dir c.dir ⟨t.sym :: l.tail, by rw [e2, htail]; rfl, fun x hx => ?_⟩
        ⟨m, by rw [e1, hm'], fun x hx => hm _ _ _ _ (h5 x hx)⟩
      rcases List.mem_cons.1 hx with rfl | hx
      · rw [Dir.other_other] at h3; exact hm _ _ _ _ h3
      · exact hm _ _ _ _ (h4 x hx)
  cases l with
  | nil =>
    have hf : c.front = M.initSym := by unfold DC.front; rw [hl]; rfl
    obtain ⟨b1, b2, hb, hle⟩ := hB
    obtain ⟨t', ht, hb⟩ := bind_some hb
    obtain ⟨r1, r2⟩ := runTrans_spec ht
    rw [hf] at htr
    have : t' = t := by rw [← r1, ← htr]
    subst this
    cases hb
    refine ⟨r2, hle.has _ (upd_has _ _ _ _ _), hle.mem _ _ _ _ (upd_mem _ _ _ _ (by simp)),
      (fun x hx => by cases hx), fun x hx => hle.mem _ _ _ _ ((upd_le _ _ _ _ _).mem _ _ _ _
        (upd_mem _ _ _ _ (hmem _ _ (hmA x hx))))⟩
  | cons a l =>
    have hf : c.front = a := by unfold DC.front; rw [hl]; rfl
    obtain ⟨b1, b2, hb, hle⟩ := hA a (hmem _ _ (hlA a (by simp)))
    obtain ⟨t', ht, hb⟩ := bind_some hb
    obtain ⟨r1, r2⟩ := runTrans_spec ht
    rw [hf] at htr
    have : t' = t := by rw [← r1, ← htr]
    subst this
    cases hb
    refine ⟨r2, hle.has _ (upd_has _ _ _ _ _), hle.mem _ _ _ _ (upd_mem _ _ _ _ (by simp)),
      fun x hx => hle.mem _ _ _ _ ((upd_le _ _ _ _ _).mem _ _ _ _
        ((updAll_mem _ _ _ (by cases c.dir <;> simp) (by simp)).2 x (hmem _ _ (hlA x (List.mem_cons_of_mem _ hx))))),
      fun x hx => hle.mem _ _ _ _ ((upd_le _ _ _ _ _).mem _ _ _ _
        ((updAll_mem _ _ _ (by cases c.dir <;> simp [Dir.other]) (by simp)).2 x (hmem _ _ (hmA x hx))))⟩

/-- the stream of a well-formed half tape -/
theorem unroll_flat {z : σ} {h : List (Blk σ Nat)} (hw : WFHalf z h) :
    ∃ l : List σ, unroll z h = pre l (fun _ => z) ∧ (∀ x ∈ l, ∃ b ∈ h.dropLast, b.sym = x) := by
  induction h with
  | nil => exact hw.elim
  | cons b rest ih =>
    obtain ⟨a, num⟩ := b
    cases num with
    | none =>
      obtain ⟨rfl, rfl⟩ := wfHalf_inf hw
      exact ⟨[], rfl, fun x hx => by cases hx⟩
    | some n =>
      obtain ⟨h1, ⟨b', r, hr, -⟩, h3⟩ := wfHalf_cons.1 hw
      obtain ⟨l, hl, hx⟩ := ih h3
      refine ⟨List.replicate n a ++ l, ?_, ?_⟩
      · rw [unroll_fin, hl, pre_append]
      · subst hr
        intro x hx'
        rw [List.mem_append] at hx'
        rcases hx' with h | h
        · exact ⟨⟨a, some n⟩, by simp, (List.eq_of_mem_replicate h).symm⟩
        · obtain ⟨b, hb, hbx⟩ := hx x h
          exact ⟨b, by rw [List.dropLast_cons_cons]; exact List.mem_cons_of_mem _ hb, hbx⟩

theorem ctl1_sound {T : Table} {M : Machine σ S} {Den TDen hs} (F : Follows T M Den TDen hs)
    (s : SimSt σ S Nat) (cfg : Config) (hw : s.tape.WF M.initSym) (hdir : s.dir = s.tape.dir)
    (hd : Den (s.dc M.initSym) cfg)
    (fuel : Nat) (h : ctl1 M s fuel = true) : NeverHalts T cfg := by
  unfold ctl1 at h
  obtain ⟨table, new, hle, hr, -, hh, hm⟩ := loop_spec (by simp) fuel _ h
  refine covered_never F (Cov1 M.initSym table) (cov1_step hr hh hm) _ _ hd ⟨?_, fun d => ?_⟩
  · have := hle.has _ (upd_has _ _ _ _ _)
    rw [hdir] at this
    exact this
  · obtain ⟨l, hl, hx⟩ := unroll_flat (hw d)
    refine ⟨l, hl, fun x hxl => ?_⟩
    obtain ⟨b, hb, rfl⟩ := hx x hxl
    have hmemt : b.sym ∈ ctl1Tape (s.tape.half d) :=
      List.mem_map.2 ⟨b, List.mem_of_mem_dropLast hb, rfl⟩
    have : mem table (s.st, s.dir) d .A b.sym := by
      apply hle.mem _ _ _ _ (by simp)
      cases d
      · exact (upd_le _ _ _ _ _).mem _ _ _ _ (upd_mem _ _ _ _ hmemt)
      · exact upd_mem _ _ _ _ hmemt
    rw [hdir] at this
    exact this

/-! ### Common parts of CTL2 to CTL4 -/

theorem two_closed (fA fB : S × Dir → Sets σ → Tab σ S → σ → Option (Tab σ S))
    (iA : ∀ k v b a b', fA k v b a = some b' → Le b b') (iB : ∀ k v b a b', fB k v b a = some b' → Le b b')
    {table new : Tab σ S}
    (h : table.foldlM (fun new e => do
      let new ← (e.2.get e.1.2 .A).foldlM (fA e.1 e.2) new
      (e.2.get e.1.2 .B).foldlM (fB e.1 e.2) new) [] = some new)
    {k : S × Dir} {v : Sets σ} (hv : Py.dget table k = some v) :
    (∀ a ∈ v.get k.2 .A, ∃ b1 b2, fA k v b1 a = some b2 ∧ Le b2 new) ∧
    (∀ a ∈ v.get k.2 .B, ∃ b1 b2, fB k v b1 a = some b2 ∧ Le b2 new) := by
  obtain ⟨-, h2⟩ := foldlM_le Le Le.refl (fun _ _ _ => Le.trans) _ (fun b a b' hf => by
    obtain ⟨b1, h1, h2⟩ := bind_some hf
    exact ((foldlM_le Le Le.refl (fun _ _ _ => Le.trans) _ (fun _ _ _ => iA _ _ _ _ _) _ _ _ h1).1).trans
      (foldlM_le Le Le.refl (fun _ _ _ => Le.trans) _ (fun _ _ _ => iB _ _ _ _ _) _ _ _ h2).1) _ _ _ h
  obtain ⟨b1, b2, hf, hle⟩ := h2 _ (dget_entry hv)
  obtain ⟨b3, h3, h4⟩ := bind_some hf
  obtain ⟨h5, h6⟩ := foldlM_le Le Le.refl (fun _ _ _ => Le.trans) _ (fun _ _ _ => iB _ _ _ _ _) _ _ _ h4
  obtain ⟨-, h7⟩ := foldlM_le Le Le.refl (fun _ _ _ => Le.trans) _ (fun _ _ _ => iA _ _ _ _ _) _ _ _ h3
  refine ⟨fun a ha => ?_, fun a ha => ?_⟩
  · obtain ⟨x, y, hx, hy⟩ := h7 a ha
    exact ⟨x, y, hx, (hy.trans h5).trans hle⟩
  · obtain ⟨x, y, hx, hy⟩ := h6 a ha
    exact ⟨x, y, hx, hy.trans hle⟩

theorem move_build (c : DC σ S) (t : Trans σ S) (Q : Dir → (Nat → σ) → Prop)
    (same : t.dir = c.dir → Q c.dir (fun i => c.side c.dir (i + 1)) ∧
      Q c.dir.other (cons t.sym (c.side c.dir.other)))
    (turn : t.dir = c.dir.other → Q c.dir.other (c.side c.dir.other) ∧
      Q c.dir (cons t.sym (fun i => c.side c.dir (i + 1)))) :
    ∀ d, Q d ((c.take t).side d) := by
  show ∀ d, Q d ((c.move t.sym t.st t.dir).side d)
  rcases dir_cases t.dir c.dir with hd | hd
  · obtain ⟨h1, h2⟩ := same hd
    rw [hd]
    obtain ⟨e1, e2⟩ := move_same c t.sym t.st
    exact forall_dir c.dir (e1 ▸ h1) (e2 ▸ h2)
  · obtain ⟨h1, h2⟩ := turn hd
    rw [hd]
    obtain ⟨e1, e2⟩ := move_turn c t.sym t.st
    exact forall_dir c.dir (e2 ▸ h2) (e1 ▸ h1)

theorem const_cons (z : σ) : (fun _ : Nat => z) = cons z (fun _ => z) := by
  funext i; cases i <;> rfl

theorem mem_both (d : Dir) : d ∈ [Dir.L, Dir.R] := by cases d <;> simp

theorem pre_cons_list (a : σ) (l : List σ) (s : Nat → σ) : pre (a :: l) s = cons a (pre l s) := rfl

theorem forall_cons {a : σ} {l : List σ} {P : σ → Prop} (h : P a) (h' : ∀ x ∈ l, P x) : ∀ x ∈ a :: l, P x := by
  intro x hx
  rcases List.mem_cons.1 hx with rfl | hx
  · exact h
  · exact h' x hx

/-! ### CTL2 -/

/-- one side in `A* B 0^∞` -/
def Q2 (z : σ) (t : Tab σ S) (k : S × Dir) (d : Dir) (s : Nat → σ) : Prop :=
  ∃ l b, s = pre l (cons b (fun _ => z)) ∧ (∀ x ∈ l, mem t k d .A x) ∧ mem t k d .B b

def Cov2 (z : σ) (table : Tab σ S) (c : DC σ S) : Prop := ∀ d, Q2 z table (c.st, c.dir) d (c.side d)

theorem Q2.mono {z : σ} {t u : Tab σ S} (h : ∀ k d s x, mem t k d s x → mem u k d s x) {k : S × Dir} {d : Dir}
    {s : Nat → σ} : Q2 z t k d s → Q2 z u k d s := by
  rintro ⟨l, b, h1, h2, h3⟩
  exact ⟨l, b, h1, fun x hx => h _ _ _ _ (h2 x hx), h _ _ _ _ h3⟩

theorem ctl2A_infl {M : Machine σ S} (k : S × Dir) (v : Sets σ) (b : Tab σ S) (a : σ) (b' : Tab σ S)
    (h : ctl2A M k v b a = some b') : Le b b' := by
  obtain ⟨t, ht, h⟩ := bind_some h
  cases h
  exact (updAll_le _ _ _ _ _).trans (upd_le _ _ _ _ _)

theorem ctl2B_infl {M : Machine σ S} (k : S × Dir) (v : Sets σ) (b : Tab σ S) (a : σ) (b' : Tab σ S)
    (h : ctl2B M k v b a = some b') : Le b b' := by
  obtain ⟨t, ht, h⟩ := bind_some h
  simp only at h
  split at h <;> cases h
  · exact ((updAll_le _ _ _ _ _).trans (upd_le _ _ _ _ _)).trans (upd_le _ _ _ _ _)
  · exact (updAll_le _ _ _ _ _).trans (upd_le _ _ _ _ _)

theorem cov2_step {M : Machine σ S} {table new : Tab σ S} (h : ctl2Round M table = some new)
    (hm : ∀ k d s x, mem new k d s x → mem table k d s x)
    (c : DC σ S) (hc : Cov2 M.initSym table c) :
    (M.trans c.front c.st c.dir).cond = .running ∧
      Cov2 M.initSym table (c.take (M.trans c.front c.st c.dir)) := by
  obtain ⟨l, b, hl, hlA, hlB⟩ := hc c.dir
  obtain ⟨m, b', hm', hmA, hmB⟩ := hc c.dir.other
  obtain ⟨v, hv, -⟩ := id hlB
  obtain ⟨hA, hB⟩ := two_closed _ _ ctl2A_infl ctl2B_infl h hv
  have hget : ∀ {d s x}, mem table (c.st, c.dir) d s x → x ∈ v.get d s := by
    rintro d s x ⟨w, hw, hx⟩
    rw [hv] at hw; cases hw; exact hx
  generalize htr : M.trans c.front c.st c.dir = t
  suffices hsuff : t.cond = .running ∧ ∀ d, Q2 M.initSym new (t.st, t.dir) d ((c.take t).side d) from
    ⟨hsuff.1, fun d => (hsuff.2 d).mono hm⟩
  cases l with
  | cons a l =>
    have hf : c.front = a := by unfold DC.front; rw [hl]; rfl
    have htail : (fun i => c.side c.dir (i + 1)) = pre l (cons b fun _ => M.initSym) := by rw [hl]; rfl
    obtain ⟨b1, b2, hb, hle⟩ := hA a (hget (hlA a (by simp)))
    obtain ⟨t', ht, hb⟩ := bind_some hb
    obtain ⟨r1, r2⟩ := runTrans_spec ht
    rw [hf] at htr
    have : t' = t := by rw [← r1, ← htr]
    subst this
    cases hb
    have hcopy : ∀ {d s x}, s ∈ [Slot.A, .B] → x ∈ v.get d s → mem new (t'.st, t'.dir) d s x := fun hs hx =>
      hle.mem _ _ _ _ ((upd_le _ _ _ _ _).mem _ _ _ _ ((updAll_mem _ _ _ (mem_both _) hs).2 _ hx))
    have hsym : mem new (t'.st, t'.dir) t'.dir.other .A t'.sym := hle.mem _ _ _ _ (upd_mem _ _ _ _ (by simp))
    have hlA' : ∀ x ∈ l, mem new (t'.st, t'.dir) c.dir .A x := fun x hx =>
      hcopy (by simp) (hget (hlA x (List.mem_cons_of_mem _ hx)))
    have hmA' : ∀ x ∈ m, mem new (t'.st, t'.dir) c.dir.other .A x := fun x hx => hcopy (by simp) (hget (hmA x hx))
    refine ⟨r2, move_build c t' _ (fun hd => ⟨?_, ?_⟩) (fun hd => ⟨?_, ?_⟩)⟩
    · exact ⟨l, b, htail, hlA', hcopy (by simp) (hget hlB)⟩
    · rw [hm']
      rw [hd] at hsym
      exact ⟨t'.sym :: m, b', rfl, forall_cons (hd ▸ hsym) hmA', hcopy (by simp) (hget hmB)⟩
    · rw [hm']
      exact ⟨m, b', rfl, hmA', hcopy (by simp) (hget hmB)⟩
    · rw [htail]
      have : t'.dir.other = c.dir := by rw [hd, Dir.other_other]
      rw [this] at hsym
      exact ⟨t'.sym :: l, b, rfl, forall_cons hsym hlA', hcopy (by simp) (hget hlB)⟩
  | nil =>
    have hf : c.front = b := by unfold DC.front; rw [hl]; rfl
    have htail : (fun i => c.side c.dir (i + 1)) = fun _ => M.initSym := by rw [hl]; rfl
    obtain ⟨b1, b2, hb, hle⟩ := hB b (hget hlB)
    obtain ⟨t', ht, hb⟩ := bind_some hb
    obtain ⟨r1, r2⟩ := runTrans_spec ht
    rw [hf] at htr
    have : t' = t := by rw [← r1, ← htr]
    subst this
    simp only at hb
    refine ⟨r2, move_build c t' _ (fun hd => ?_) (fun hd => ?_)⟩
    · rw [if_pos hd] at hb
      cases hb
      have hcopy : ∀ {s x}, s ∈ [Slot.A, .B] → x ∈ v.get c.dir.other s →
          mem new (t'.st, t'.dir) c.dir.other s x := fun hs hx =>
        hle.mem _ _ _ _ ((upd_le _ _ _ _ _).mem _ _ _ _ ((upd_le _ _ _ _ _).mem _ _ _ _
          ((updAll_mem _ _ _ (by simp) hs).2 _ hx)))
      have hsym : mem new (t'.st, t'.dir) t'.dir.other .A t'.sym :=
        hle.mem _ _ _ _ ((upd_le _ _ _ _ _).mem _ _ _ _ (upd_mem _ _ _ _ (by simp)))
      have hz : mem new (t'.st, t'.dir) t'.dir .B M.initSym := hle.mem _ _ _ _ (upd_mem _ _ _ _ (by simp))
      rw [htail, hm']
      refine ⟨⟨[], M.initSym, const_cons _, (fun x hx => by cases hx), ?_⟩,
        ⟨t'.sym :: m, b', rfl, forall_cons ?_ (fun x hx => hcopy (by simp) (hget (hmA x hx))),
          hcopy (by simp) (hget hmB)⟩⟩
      · have e : mem new (t'.st, t'.dir) c.dir .B M.initSym = mem new (t'.st, t'.dir) t'.dir .B M.initSym := by
          rw [hd]
        rw [e]; exact hz
      · have e : mem new (t'.st, t'.dir) c.dir.other .A t'.sym = mem new (t'.st, t'.dir) t'.dir.other .A t'.sym := by
          rw [hd]
        rw [e]; exact hsym
    · have hne : t'.dir ≠ (c.st, c.dir).2 := by rw [hd]; cases c.dir <;> simp [Dir.other]
      rw [if_neg hne] at hb
      cases hb
      have hcopy : ∀ {s x}, s ∈ [Slot.A, .B] → x ∈ v.get c.dir.other s →
          mem new (t'.st, t'.dir) c.dir.other s x := fun hs hx =>
        hle.mem _ _ _ _ ((upd_le _ _ _ _ _).mem _ _ _ _ ((updAll_mem _ _ _ (by simp) hs).2 _ hx))
      have hsym : mem new (t'.st, t'.dir) t'.dir.other .B t'.sym := hle.mem _ _ _ _ (upd_mem _ _ _ _ (by simp))
      rw [htail, hm']
      refine ⟨⟨m, b', rfl, fun x hx => hcopy (by simp) (hget (hmA x hx)), hcopy (by simp) (hget hmB)⟩,
        ⟨[], t'.sym, rfl, (fun x hx => by cases hx), ?_⟩⟩
      have : t'.dir.other = c.dir := by rw [hd, Dir.other_other]
      rw [this] at hsym
      exact hsym

/-! ### CTL3 -/

/-- one side in `A B* 0^∞` -/
def Q3 (z : σ) (t : Tab σ S) (k : S × Dir) (d : Dir) (s : Nat → σ) : Prop :=
  ∃ a l, s = cons a (pre l (fun _ => z)) ∧ mem t k d .A a ∧ ∀ x ∈ l, mem t k d .B x

def Cov3 (z : σ) (table : Tab σ S) (c : DC σ S) : Prop := ∀ d, Q3 z table (c.st, c.dir) d (c.side d)

theorem Q3.mono {z : σ} {t u : Tab σ S} (h : ∀ k d s x, mem t k d s x → mem u k d s x) {k : S × Dir} {d : Dir}
    {s : Nat → σ} : Q3 z t k d s → Q3 z u k d s := by
  rintro ⟨l, b, h1, h2, h3⟩
  exact ⟨l, b, h1, h _ _ _ _ h2, fun x hx => h _ _ _ _ (h3 x hx)⟩

theorem ctl3A_infl {M : Machine σ S} (k : S × Dir) (v : Sets σ) (b : Tab σ S) (a : σ) (b' : Tab σ S)
    (h : ctl3A M k v b a = some b') : Le b b' := by
  obtain ⟨t, ht, h⟩ := bind_some h
  simp only at h
  split at h <;> cases h
  · exact (((upd_le _ _ _ _ _).trans (upd_le _ _ _ _ _)).trans (upd_le _ _ _ _ _)).trans (upd_le _ _ _ _ _)
  · exact (((((upd_le _ _ _ _ _).trans (upd_le _ _ _ _ _)).trans (upd_le _ _ _ _ _)).trans
      (upd_le _ _ _ _ _)).trans (upd_le _ _ _ _ _)).trans (upd_le _ _ _ _ _)

theorem ctl3_closed {M : Machine σ S} {table new : Tab σ S} (h : ctl3Round M table = some new)
    {k : S × Dir} {v : Sets σ} (hv : Py.dget table k = some v) :
    ∀ a ∈ v.get k.2 .A, ∃ b1 b2, ctl3A M k v b1 a = some b2 ∧ Le b2 new := by
  obtain ⟨-, h2⟩ := foldlM_le Le Le.refl (fun _ _ _ => Le.trans) _ (fun b a b' hf =>
    (foldlM_le Le Le.refl (fun _ _ _ => Le.trans) _ (fun _ _ _ => ctl3A_infl _ _ _ _ _) _ _ _ hf).1) _ _ _ h
  obtain ⟨b1, b2, hf, hle⟩ := h2 _ (dget_entry hv)
  intro a ha
  obtain ⟨x, y, hx, hy⟩ := (foldlM_le Le Le.refl (fun _ _ _ => Le.trans) _
    (fun _ _ _ => ctl3A_infl _ _ _ _ _) _ _ _ hf).2 a ha
  exact ⟨x, y, hx, hy.trans hle⟩

theorem cov3_step {M : Machine σ S} {table new : Tab σ S} (h : ctl3Round M table = some new)
    (hm : ∀ k d s x, mem new k d s x → mem table k d s x)
    (c : DC σ S) (hc : Cov3 M.initSym table c) :
    (M.trans c.front c.st c.dir).cond = .running ∧
      Cov3 M.initSym table (c.take (M.trans c.front c.st c.dir)) := by
  obtain ⟨a, l, hl, hlA, hlB⟩ := hc c.dir
  obtain ⟨a', m, hm', hmA, hmB⟩ := hc c.dir.other
  obtain ⟨v, hv, -⟩ := id hlA
  have hA := ctl3_closed h hv
  have hget : ∀ {d s x}, mem table (c.st, c.dir) d s x → x ∈ v.get d s := by
    rintro d s x ⟨w, hw, hx⟩
    rw [hv] at hw; cases hw; exact hx
  generalize htr : M.trans c.front c.st c.dir = t
  suffices hsuff : t.cond = .running ∧ ∀ d, Q3 M.initSym new (t.st, t.dir) d ((c.take t).side d) from
    ⟨hsuff.1, fun d => (hsuff.2 d).mono hm⟩
  have hf : c.front = a := by unfold DC.front; rw [hl]; rfl
  have htail : (fun i => c.side c.dir (i + 1)) = pre l (fun _ => M.initSym) := by rw [hl]; rfl
  obtain ⟨b1, b2, hb, hle⟩ := hA a (hget hlA)
  obtain ⟨t', ht, hb⟩ := bind_some hb
  obtain ⟨r1, r2⟩ := runTrans_spec ht
  rw [hf] at htr
  have : t' = t := by rw [← r1, ← htr]
  subst this
  simp only at hb
  refine ⟨r2, move_build c t' _ (fun hd => ?_) (fun hd => ?_)⟩
  · rw [if_neg (by simpa using hd)] at hb
    cases hb
    rw [htail, hm', ← hd]
    replace hlB := fun x hx => hget (hlB x hx)
    replace hmB := fun x hx => hget (hmB x hx)
    replace hmA := hget hmA
    rw [← hd] at hlB hmB hmA
    refine ⟨?_, t'.sym, a' :: m, rfl, ?_, forall_cons ?_ (fun x hx => ?_)⟩
    · cases l with
      | nil =>
        refine ⟨M.initSym, [], const_cons _, ?_, fun x hx => by cases hx⟩
        apply hle.mem
        iterate 4 apply (upd_le _ _ _ _ _).mem
        exact upd_mem _ _ _ _ (by simp)
      | cons x l =>
        refine ⟨x, l, rfl, ?_, fun y hy => ?_⟩
        · apply hle.mem
          iterate 5 apply (upd_le _ _ _ _ _).mem
          exact upd_mem _ _ _ _ (hlB x (by simp))
        · apply hle.mem
          iterate 3 apply (upd_le _ _ _ _ _).mem
          exact upd_mem _ _ _ _ (hlB y (List.mem_cons_of_mem _ hy))
    · apply hle.mem
      iterate 2 apply (upd_le _ _ _ _ _).mem
      exact upd_mem _ _ _ _ (by simp)
    · apply hle.mem
      iterate 1 apply (upd_le _ _ _ _ _).mem
      exact upd_mem _ _ _ _ hmA
    · apply hle.mem
      exact upd_mem _ _ _ _ (hmB x hx)
  · have hne : t'.dir ≠ (c.st, c.dir).2 := by rw [hd]; cases c.dir <;> simp [Dir.other]
    rw [if_pos hne] at hb
    cases hb
    have hdo : c.dir = t'.dir.other := by rw [hd, Dir.other_other]
    rw [htail, hm', ← hd]
    rw [← hd] at hmB hmA
    refine ⟨⟨a', m, rfl, ?_, fun x hx => ?_⟩, ?_⟩
    · apply hle.mem
      iterate 3 apply (upd_le _ _ _ _ _).mem
      exact upd_mem _ _ _ _ (hget hmA)
    · apply hle.mem
      iterate 2 apply (upd_le _ _ _ _ _).mem
      exact upd_mem _ _ _ _ (hget (hmB x hx))
    · have hlB' : ∀ x ∈ l, x ∈ v.get t'.dir.other .B := fun x hx => hdo ▸ hget (hlB x hx)
      rw [hdo]
      refine ⟨t'.sym, l, rfl, ?_, fun x hx => ?_⟩
      · apply hle.mem
        iterate 1 apply (upd_le _ _ _ _ _).mem
        exact upd_mem _ _ _ _ (by simp)
      · apply hle.mem
        exact upd_mem _ _ _ _ (hlB' x hx)

/-! ### CTL4 -/

/-- one side in `A* B C 0^∞` -/
def Q4 (z : σ) (t : Tab σ S) (k : S × Dir) (d : Dir) (s : Nat → σ) : Prop :=
  ∃ l b e, s = pre l (cons b (cons e (fun _ => z))) ∧ (∀ x ∈ l, mem t k d .A x) ∧ mem t k d .B b ∧
    mem t k d .C e

def Cov4 (z : σ) (table : Tab σ S) (c : DC σ S) : Prop := ∀ d, Q4 z table (c.st, c.dir) d (c.side d)

theorem Q4.mono {z : σ} {t u : Tab σ S} (h : ∀ k d s x, mem t k d s x → mem u k d s x) {k : S × Dir} {d : Dir}
    {s : Nat → σ} : Q4 z t k d s → Q4 z u k d s := by
  rintro ⟨l, b, e, h1, h2, h3, h4⟩
  exact ⟨l, b, e, h1, fun x hx => h _ _ _ _ (h2 x hx), h _ _ _ _ h3, h _ _ _ _ h4⟩

theorem ctl4A_infl {M : Machine σ S} (k : S × Dir) (v : Sets σ) (b : Tab σ S) (a : σ) (b' : Tab σ S)
    (h : ctl4A M k v b a = some b') : Le b b' := by
  obtain ⟨t, ht, h⟩ := bind_some h
  cases h
  exact (updAll_le _ _ _ _ _).trans (upd_le _ _ _ _ _)

theorem ctl4B_infl {M : Machine σ S} (k : S × Dir) (v : Sets σ) (b : Tab σ S) (a : σ) (b' : Tab σ S)
    (h : ctl4B M k v b a = some b') : Le b b' := by
  obtain ⟨t, ht, h⟩ := bind_some h
  simp only at h
  split at h <;> cases h
  · exact (((updAll_le _ _ _ _ _).trans (upd_le _ _ _ _ _)).trans (upd_le _ _ _ _ _)).trans (upd_le _ _ _ _ _)
  · exact ((updAll_le _ _ _ _ _).trans (upd_le _ _ _ _ _)).trans (upd_le _ _ _ _ _)

theorem cov4_step {M : Machine σ S} {table new : Tab σ S} (h : ctl4Round M table = some new)
    (hm : ∀ k d s x, mem new k d s x → mem table k d s x)
    (c : DC σ S) (hc : Cov4 M.initSym table c) :
    (M.trans c.front c.st c.dir).cond = .running ∧
      Cov4 M.initSym table (c.take (M.trans c.front c.st c.dir)) := by
  obtain ⟨l, b, e, hl, hlA, hlB, hlC⟩ := hc c.dir
  obtain ⟨m, b', e', hm', hmA, hmB, hmC⟩ := hc c.dir.other
  obtain ⟨v, hv, -⟩ := id hlB
  obtain ⟨hA, hB⟩ := two_closed _ _ ctl4A_infl ctl4B_infl h hv
  have hget : ∀ {d s x}, mem table (c.st, c.dir) d s x → x ∈ v.get d s := by
    rintro d s x ⟨w, hw, hx⟩
    rw [hv] at hw; cases hw; exact hx
  generalize htr : M.trans c.front c.st c.dir = t
  suffices hsuff : t.cond = .running ∧ ∀ d, Q4 M.initSym new (t.st, t.dir) d ((c.take t).side d) from
    ⟨hsuff.1, fun d => (hsuff.2 d).mono hm⟩
  cases l with
  | cons a l =>
    have hf : c.front = a := by unfold DC.front; rw [hl]; rfl
    have htail : (fun i => c.side c.dir (i + 1)) = pre l (cons b (cons e fun _ => M.initSym)) := by rw [hl]; rfl
    obtain ⟨b1, b2, hb, hle⟩ := hA a (hget (hlA a (by simp)))
    obtain ⟨t', ht, hb⟩ := bind_some hb
    obtain ⟨r1, r2⟩ := runTrans_spec ht
    rw [hf] at htr
    have : t' = t := by rw [← r1, ← htr]
    subst this
    cases hb
    have hcopy : ∀ {d s x}, s ∈ [Slot.A, .B, .C] → x ∈ v.get d s → mem new (t'.st, t'.dir) d s x := fun hs hx =>
      hle.mem _ _ _ _ ((upd_le _ _ _ _ _).mem _ _ _ _ ((updAll_mem _ _ _ (mem_both _) hs).2 _ hx))
    have hsym : mem new (t'.st, t'.dir) t'.dir.other .A t'.sym := hle.mem _ _ _ _ (upd_mem _ _ _ _ (by simp))
    have hlA' : ∀ x ∈ l, mem new (t'.st, t'.dir) c.dir .A x := fun x hx =>
      hcopy (by simp) (hget (hlA x (List.mem_cons_of_mem _ hx)))
    have hmA' : ∀ x ∈ m, mem new (t'.st, t'.dir) c.dir.other .A x := fun x hx => hcopy (by simp) (hget (hmA x hx))
    refine ⟨r2, move_build c t' _ (fun hd => ⟨?_, ?_⟩) (fun hd => ⟨?_, ?_⟩)⟩
    · exact ⟨l, b, e, htail, hlA', hcopy (by simp) (hget hlB), hcopy (by simp) (hget hlC)⟩
    · rw [hm']
      rw [hd] at hsym
      exact ⟨t'.sym :: m, b', e', rfl, forall_cons (hd ▸ hsym) hmA', hcopy (by simp) (hget hmB),
        hcopy (by simp) (hget hmC)⟩
    · rw [hm']
      exact ⟨m, b', e', rfl, hmA', hcopy (by simp) (hget hmB), hcopy (by simp) (hget hmC)⟩
    · rw [htail]
      have : t'.dir.other = c.dir := by rw [hd, Dir.other_other]
      rw [this] at hsym
      exact ⟨t'.sym :: l, b, e, rfl, forall_cons hsym hlA', hcopy (by simp) (hget hlB), hcopy (by simp) (hget hlC)⟩
  | nil =>
    have hf : c.front = b := by unfold DC.front; rw [hl]; rfl
    have htail : (fun i => c.side c.dir (i + 1)) = cons e fun _ => M.initSym := by rw [hl]; rfl
    obtain ⟨b1, b2, hb, hle⟩ := hB b (hget hlB)
    obtain ⟨t', ht, hb⟩ := bind_some hb
    obtain ⟨r1, r2⟩ := runTrans_spec ht
    rw [hf] at htr
    have : t' = t := by rw [← r1, ← htr]
    subst this
    simp only at hb
    refine ⟨r2, move_build c t' _ (fun hd => ?_) (fun hd => ?_)⟩
    · rw [if_pos hd] at hb
      cases hb
      rw [htail, hm', ← hd]
      replace hmA := fun x hx => hget (hmA x hx)
      replace hmB := hget hmB
      replace hmC := hget hmC
      replace hlC := hget hlC
      rw [← hd] at hlC hmA hmB hmC
      have hcopy : ∀ {s x}, s ∈ [Slot.A, .B, .C] → x ∈ v.get t'.dir.other s →
          mem new (t'.st, t'.dir) t'.dir.other s x := fun hs hx => by
        apply hle.mem
        iterate 3 apply (upd_le _ _ _ _ _).mem
        exact (updAll_mem _ _ _ (by rw [hd]; simp) hs).2 _ hx
      refine ⟨⟨[], e, M.initSym, congrArg (cons e) (const_cons _), (fun x hx => by cases hx), ?_, ?_⟩,
        ⟨t'.sym :: m, b', e', rfl, forall_cons ?_ (fun x hx => hcopy (by simp) (hmA x hx)),
          hcopy (by simp) hmB, hcopy (by simp) hmC⟩⟩
      · apply hle.mem
        iterate 1 apply (upd_le _ _ _ _ _).mem
        exact upd_mem _ _ _ _ hlC
      · apply hle.mem
        exact upd_mem _ _ _ _ (by simp)
      · apply hle.mem
        iterate 2 apply (upd_le _ _ _ _ _).mem
        exact upd_mem _ _ _ _ (by simp)
    · have hne : t'.dir ≠ (c.st, c.dir).2 := by rw [hd]; cases c.dir <;> simp [Dir.other]
      rw [if_neg hne] at hb
      cases hb
      have hdo : c.dir = t'.dir.other := by rw [hd, Dir.other_other]
      have hcopy : ∀ {s x}, s ∈ [Slot.A, .B, .C] → x ∈ v.get c.dir.other s →
          mem new (t'.st, t'.dir) c.dir.other s x := fun hs hx => by
        apply hle.mem
        iterate 2 apply (upd_le _ _ _ _ _).mem
        exact (updAll_mem _ _ _ (by simp) hs).2 _ hx
      rw [htail, hm']
      refine ⟨⟨m, b', e', rfl, fun x hx => hcopy (by simp) (hget (hmA x hx)), hcopy (by simp) (hget hmB),
        hcopy (by simp) (hget hmC)⟩, ?_⟩
      have hC : e ∈ v.get t'.dir.other .C := hdo ▸ hget hlC
      rw [hdo]
      refine ⟨[], t'.sym, e, rfl, (fun x hx => by cases hx), ?_, ?_⟩
      · apply hle.mem
        iterate 1 apply (upd_le _ _ _ _ _).mem
        exact upd_mem _ _ _ _ (by simp)
      · apply hle.mem
        exact upd_mem _ _ _ _ hC

/-! ### The initial configuration -/

def flat (bl : List (σ × Nat)) : List σ := bl.flatMap (fun b => List.replicate b.2 b.1)

def blk (b : σ × Nat) : Blk σ Nat := ⟨b.1, some b.2⟩

theorem mem_flat {bl : List (σ × Nat)} {x : σ} (h : x ∈ flat bl) : x ∈ bl.map (·.1) := by
  unfold flat at h
  rw [List.mem_flatMap] at h
  obtain ⟨b, hb, hx⟩ := h
  rw [List.eq_of_mem_replicate hx]
  exact List.mem_map.2 ⟨b, hb, rfl⟩

theorem wf_form {z : σ} {h : List (Blk σ Nat)} (hw : WFHalf z h) :
    ∃ bl : List (σ × Nat), (∀ b ∈ bl, 0 < b.2) ∧ h = bl.map blk ++ [⟨z, none⟩] ∧
      unroll z h = pre (flat bl) (fun _ => z) := by
  induction h with
  | nil => exact hw.elim
  | cons b rest ih =>
    obtain ⟨a, num⟩ := b
    cases num with
    | none =>
      obtain ⟨rfl, rfl⟩ := wfHalf_inf hw
      exact ⟨[], (fun x hx => by cases hx), rfl, rfl⟩
    | some n =>
      obtain ⟨h1, -, h3⟩ := wfHalf_cons.1 hw
      obtain ⟨bl, e1, e2, e3⟩ := ih h3
      refine ⟨(a, n) :: bl, ?_, by rw [e2]; rfl, ?_⟩
      · intro b hb
        rcases List.mem_cons.1 hb with rfl | hb
        · exact h1
        · exact e1 b hb
      · rw [unroll_fin, e3, ← pre_append]
        rfl

theorem flat_append (a b : List (σ × Nat)) : flat (a ++ b) = flat a ++ flat b := by
  unfold flat; rw [List.flatMap_append]

theorem flat_single (x : σ) (n : Nat) : flat [(x, n)] = List.replicate n x := by
  simp [flat]

theorem ctl2_init {z : σ} {h : List (Blk σ Nat)} (hw : WFHalf z h) :
    ∃ l b, unroll z h = pre l (cons b (fun _ => z)) ∧ (∀ x ∈ l, x ∈ (ctl2Tape h).dropLast) ∧
      (ctl2Tape h).getLast?.getD z = b := by
  obtain ⟨bl, e1, e2, e3⟩ := wf_form hw
  rw [e3]
  have hd : h.dropLast = bl.map blk := by rw [e2, List.dropLast_concat]
  rcases List.eq_nil_or_concat bl with rfl | ⟨ini, ⟨x, n⟩, rfl⟩
  · refine ⟨[], z, const_cons z, (fun x hx => by cases hx), ?_⟩
    unfold ctl2Tape
    rw [hd]
    rfl
  · rw [List.concat_eq_append] at *
    have hn : 0 < n := e1 (x, n) (by simp)
    obtain ⟨m, rfl⟩ : ∃ m, n = m + 1 := ⟨n - 1, by omega⟩
    have ht : ctl2Tape h = ini.map (·.1) ++ (x :: if m + 1 > 1 then [x] else []) := by
      unfold ctl2Tape
      rw [hd, List.map_append]
      simp only [List.map_cons, List.map_nil, List.getLast?_concat, blk, List.map_append, List.map_map]
      rw [List.append_assoc]
      rfl
    refine ⟨flat ini ++ List.replicate m x, x, ?_, ?_, ?_⟩
    · rw [flat_append, flat_single, List.replicate_succ', ← List.append_assoc, pre_append]
      rfl
    · intro y hy
      rw [ht]
      rcases List.mem_append.1 hy with hy | hy
      · have := mem_flat hy
        split
        · rw [show ini.map (·.1) ++ [x, x] = (ini.map (·.1) ++ [x]) ++ [x] by simp, List.dropLast_concat]
          exact List.mem_append_left _ this
        · rw [List.dropLast_concat]; exact this
      · have hm : m ≠ 0 := by rintro rfl; simp at hy
        rw [if_pos (by omega), show ini.map (·.1) ++ [x, x] = (ini.map (·.1) ++ [x]) ++ [x] by simp,
          List.dropLast_concat, List.eq_of_mem_replicate hy]
        simp
    · rw [ht]
      split
      · rw [show ini.map (·.1) ++ [x, x] = (ini.map (·.1) ++ [x]) ++ [x] by simp, List.getLast?_concat]; rfl
      · rw [List.getLast?_concat]; rfl

theorem ctl3_init {z : σ} {h : List (Blk σ Nat)} (hw : WFHalf z h) :
    ∃ s a l, ctl3Side h = some s ∧ unroll z h = cons a (pre l (fun _ => z)) ∧ a ∈ s.a ∧ ∀ x ∈ l, x ∈ s.b := by
  obtain ⟨bl, e1, e2, e3⟩ := wf_form hw
  rw [e3, e2]
  cases bl with
  | nil => exact ⟨_, z, [], rfl, const_cons z, List.mem_cons_self, fun x hx => by cases hx⟩
  | cons b bl =>
    obtain ⟨x, n⟩ := b
    have hn : 0 < n := e1 (x, n) (by simp)
    obtain ⟨m, rfl⟩ : ∃ m, n = m + 1 := ⟨n - 1, by omega⟩
    have hb : (bl.map blk ++ [(⟨z, none⟩ : Blk σ Nat)]).dropLast.map (·.sym) = bl.map (·.1) := by
      rw [List.dropLast_concat, List.map_map]; rfl
    have hs : ctl3Side (((x, m + 1) :: bl).map blk ++ [⟨z, none⟩]) =
        some ⟨[x], if m + 1 > 1 then Py.sadd (bl.map (·.1)) x else bl.map (·.1), []⟩ := by
      rw [List.map_cons, List.cons_append]
      unfold ctl3Side
      simp only [hb]
      by_cases hm : m + 1 > 1
      · rw [if_pos hm, if_pos (by simpa [longer, blk] using hm)]; rfl
      · rw [if_neg hm, if_neg (by simpa [longer, blk] using hm)]; rfl
    refine ⟨_, x, List.replicate m x ++ flat bl, hs, rfl, List.mem_cons_self, fun y hy => ?_⟩
    show y ∈ if m + 1 > 1 then Py.sadd (bl.map (·.1)) x else bl.map (·.1)
    rcases List.mem_append.1 hy with hy | hy
    · have hm : m ≠ 0 := by rintro rfl; simp at hy
      rw [if_pos (by omega), Py.mem_sadd, List.eq_of_mem_replicate hy]
      exact Or.inl rfl
    · split
      · rw [Py.mem_sadd]; exact Or.inr (mem_flat hy)
      · exact mem_flat hy

theorem get_neg {α : Type} {xs : List α} {i : Nat} (h : i < xs.length) :
    Py.get xs (-(i + 1 : Nat)) = xs[xs.length - (i + 1)]? := by
  unfold Py.get Py.pyIdx
  have h0 : ¬ (0 ≤ -((i + 1 : Nat) : Int)) := by omega
  have h1 : -(xs.length : Int) ≤ -((i + 1 : Nat) : Int) := by omega
  rw [if_neg h0, if_pos h1]
  simp only [Option.bind_some]
  congr 1
  omega

/-- The initial sets of CTL4 cover the side: it has at most two finite runs, or the outermost one has
length at most 2. -/
theorem ctl4_init {z : σ} {h : List (Blk σ Nat)} (hw : WFHalf z h)
    (hok : h.length ≤ 3 ∨ ∀ b, h.dropLast.getLast? = some b → longer b 2 = false) :
    ∃ s l b e, ctl4Side h.reverse = some s ∧ unroll z h = pre l (cons b (cons e (fun _ => z))) ∧
      (∀ x ∈ l, x ∈ s.a) ∧ b ∈ s.b ∧ e ∈ s.c := by
  obtain ⟨bl, e1, e2, e3⟩ := wf_form hw
  have hd : h.dropLast = bl.map blk := by rw [e2, List.dropLast_concat]
  rw [hd] at hok
  rw [e3]
  have hrev : h.reverse = ⟨z, none⟩ :: (bl.reverse.map blk) := by
    rw [e2, List.reverse_append, List.map_reverse]; rfl
  have hlen : h.length = bl.length + 1 := by rw [e2]; simp
  rw [hrev]
  rcases List.eq_nil_or_concat bl with rfl | ⟨ini, ⟨x, n⟩, rfl⟩
  · exact ⟨_, [], z, z, rfl, (const_cons z).trans (congrArg (cons z) (const_cons z)),
      (fun x hx => by cases hx), List.mem_cons_self, List.mem_cons_self⟩
  rw [List.concat_eq_append] at *
  have hn : 0 < n := e1 (x, n) (by simp)
  rw [List.reverse_append, flat_append, flat_single]
  rw [List.map_append, List.map_cons, List.map_nil, List.getLast?_concat] at hok
  rw [List.length_append, List.length_singleton] at hlen
  show ∃ s l b e, ctl4Side (⟨z, none⟩ :: blk (x, n) :: ini.reverse.map blk) = some s ∧ _
  have ha : ((⟨z, none⟩ :: blk (x, n) :: ini.reverse.map blk : List (Blk σ Nat)).drop 2).map (·.sym) =
      ini.reverse.map (·.1) := by
    show (ini.reverse.map blk).map (·.sym) = _
    rw [List.map_map]; rfl
  have hl1 : longer (blk (x, n)) 1 = decide (n > 1) := rfl
  by_cases hn1 : n > 1
  · -- two or more copies of the outermost symbol
    obtain ⟨m, rfl⟩ : ∃ m, n = m + 2 := ⟨n - 2, by omega⟩
    have hstream : pre (flat ini ++ List.replicate (m + 2) x) (fun _ => z) =
        pre (flat ini ++ List.replicate m x) (cons x (cons x (fun _ => z))) := by
      rw [List.replicate_succ', List.replicate_succ', ← List.append_assoc, ← List.append_assoc, pre_append,
        pre_append]
      rfl
    rw [hstream]
    -- the entry of index -2
    have hget : ∃ bm2, Py.get (⟨z, none⟩ :: blk (x, m + 2) :: ini.reverse.map blk) (-2) = some bm2 ∧
        (ini.length ≤ 1 → m ≠ 0 → longer bm2 2 = true) := by
      have := get_neg (xs := (⟨z, none⟩ :: blk (x, m + 2) :: ini.reverse.map blk)) (i := 1) (by simp)
      rw [show (-2 : Int) = -((1 + 1 : Nat) : Int) by rfl, this]
      simp only [List.length_cons, List.length_map, List.length_reverse]
      rcases ini with _ | ⟨i0, _ | ⟨i1, rest⟩⟩
      · exact ⟨_, rfl, fun _ _ => rfl⟩
      · exact ⟨blk (x, m + 2), rfl, fun _ hm => by simp [longer, blk]; omega⟩
      · have hlt : (i0 :: i1 :: rest).length + 1 + 1 - (1 + 1) <
            (⟨z, none⟩ :: blk (x, m + 2) :: (i0 :: i1 :: rest).reverse.map blk).length := by simp
        rw [List.getElem?_eq_getElem hlt]
        exact ⟨_, rfl, fun hle => by simp at hle⟩
    obtain ⟨bm2, hbm, hbm'⟩ := hget
    have hmem : ∀ s : Side σ, (∀ y ∈ ini.map (·.1), y ∈ s.a) → (m ≠ 0 → x ∈ s.a) →
        ∀ y ∈ flat ini ++ List.replicate m x, y ∈ s.a := by
      intro s h1 h2 y hy
      rcases List.mem_append.1 hy with hy | hy
      · exact h1 y (mem_flat hy)
      · rw [List.eq_of_mem_replicate hy]; exact h2 (by rintro rfl; simp at hy)
    have hx : m ≠ 0 → longer bm2 2 = true := by
      intro hm
      rcases hok with hle | hle
      · exact hbm' (by omega) hm
      · have := hle _ rfl
        simp [longer, blk] at this
        exact absurd this hm
    unfold ctl4Side
    simp only [ha]
    rw [if_pos (Or.inr (by rw [hl1]; simp)), if_pos (by rw [hl1]; simp)]
    have hA : ∃ A : List σ, addFirst (ini.reverse.map (·.1)) (ini.reverse.map blk) = A ∧
          ∀ y ∈ ini.map (·.1), y ∈ A := by
      refine ⟨_, rfl, fun y hy => ?_⟩
      have hy' : y ∈ ini.reverse.map (·.1) := by rw [List.map_reverse, List.mem_reverse]; exact hy
      unfold addFirst
      split
      · exact hy'
      · rw [Py.mem_sadd]; exact Or.inr hy'
    obtain ⟨A, hA1, hA2⟩ := hA
    rw [hA1, hbm]
    refine ⟨_, _, x, x, rfl, rfl, hmem _ ?_ ?_, List.mem_cons_self, List.mem_cons_self⟩
    · intro y hy
      show y ∈ if longer bm2 2 = true then Py.sadd A (blk (x, m + 2)).sym else A
      split
      · rw [Py.mem_sadd]; exact Or.inr (hA2 y hy)
      · exact hA2 y hy
    · intro hm
      show x ∈ if longer bm2 2 = true then Py.sadd A (blk (x, m + 2)).sym else A
      rw [if_pos (hx hm), Py.mem_sadd]
      exact Or.inl rfl
  · obtain rfl : n = 1 := by omega
    rcases List.eq_nil_or_concat ini with rfl | ⟨ini', ⟨y, k⟩, rfl⟩
    · exact ⟨_, [], x, z, rfl, congrArg (cons x) (const_cons z), (fun x hx => by cases hx), List.mem_cons_self,
        List.mem_cons_self⟩
    · rw [List.concat_eq_append] at *
      have hk : 0 < k := e1 (y, k) (by simp)
      obtain ⟨m, rfl⟩ : ∃ m, k = m + 1 := ⟨k - 1, by omega⟩
      rw [List.reverse_append] at ha ⊢
      have hstream : pre (flat (ini' ++ [(y, m + 1)]) ++ List.replicate 1 x) (fun _ => z) =
          pre (flat ini' ++ List.replicate m y) (cons y (cons x (fun _ => z))) := by
        rw [flat_append, flat_single, List.replicate_succ', ← List.append_assoc, pre_append, pre_append]
        rfl
      rw [hstream]
      have hget : ∃ bm3, Py.get (⟨z, none⟩ :: blk (x, 1) :: ([(y, m + 1)].reverse ++ ini'.reverse).map blk) (-3)
          = some bm3 := by
        rw [show (-3 : Int) = -((2 + 1 : Nat) : Int) by rfl, get_neg (by simp)]
        rw [List.getElem?_eq_getElem (by simp; omega)]
        exact ⟨_, rfl⟩
      obtain ⟨bm3, hbm⟩ := hget
      unfold ctl4Side
      simp only [ha]
      rw [if_pos (Or.inl (by simp)), if_neg (by rw [hl1]; simp)]
      simp only [List.reverse_singleton, List.singleton_append, List.map_cons] at hbm ⊢
      rw [hbm]
      refine ⟨_, _, y, x, rfl, rfl, ?_, List.mem_cons_self, List.mem_cons_self⟩
      intro w hw
      have hw' : w ∈ y :: ini'.reverse.map (·.1) := by
        rcases List.mem_append.1 hw with hw | hw
        · have := mem_flat hw
          refine List.mem_cons_of_mem _ ?_
          rw [List.map_reverse, List.mem_reverse]; exact this
        · rw [List.eq_of_mem_replicate hw]; exact List.mem_cons_self
      simp only
      split
      · rw [Py.mem_sadd]; exact Or.inr hw'
      · exact hw'

/-! ### Soundness -/

theorem ctl2Init_spec (M : Machine σ S) (key : S × Dir) (d : Dir) (tape : List σ) (t : Tab σ S) :
    Le t (ctl2Init M key d tape t) ∧ (∀ x ∈ tape.dropLast, mem (ctl2Init M key d tape t) key d .A x) ∧
      mem (ctl2Init M key d tape t) key d .B (tape.getLast?.getD M.initSym) := by
  unfold ctl2Init
  cases tape.getLast? with
  | none =>
    exact ⟨(upd_le _ _ _ _ _).trans (upd_le _ _ _ _ _),
      fun x hx => (upd_le _ _ _ _ _).mem _ _ _ _ (upd_mem _ _ _ _ hx), upd_mem _ _ _ _ (by simp)⟩
  | some y =>
    exact ⟨(upd_le _ _ _ _ _).trans (upd_le _ _ _ _ _),
      fun x hx => (upd_le _ _ _ _ _).mem _ _ _ _ (upd_mem _ _ _ _ hx), upd_mem _ _ _ _ (by simp)⟩

theorem ctl2_sound {T : Table} {M : Machine σ S} {Den TDen hs} (F : Follows T M Den TDen hs)
    (s : SimSt σ S Nat) (cfg : Config) (hw : s.tape.WF M.initSym) (hdir : s.dir = s.tape.dir)
    (hd : Den (s.dc M.initSym) cfg)
    (fuel : Nat) (h : ctl2 M s fuel = true) : NeverHalts T cfg := by
  unfold ctl2 at h
  obtain ⟨table, new, hle, hr, -, -, hm⟩ := loop_spec (by simp) fuel _ h
  refine covered_never F (Cov2 M.initSym table) (cov2_step hr hm) _ _ hd (fun d => ?_)
  obtain ⟨l, b, e1, e2, e3⟩ := ctl2_init (hw d)
  have key : ∀ s' x, s' ∈ [Slot.A, .B] → mem (ctl2Init M (s.st, s.dir) .R (ctl2Tape (s.tape.half .R))
      (ctl2Init M (s.st, s.dir) .L (ctl2Tape (s.tape.half .L)) [])) (s.st, s.dir) d s' x →
      mem table (s.st, s.tape.dir) d s' x := by
    intro s' x hs hmem
    rw [← hdir]
    exact hle.mem _ _ _ _ hs hmem
  refine ⟨l, b, e1, fun x hx => key _ _ (by simp) ?_, key _ _ (by simp) ?_⟩
  · cases d
    · exact (ctl2Init_spec _ _ _ _ _).1.mem _ _ _ _ ((ctl2Init_spec _ _ _ _ _).2.1 x (e2 x hx))
    · exact (ctl2Init_spec _ _ _ _ _).2.1 x (e2 x hx)
  · rw [← e3]
    cases d
    · exact (ctl2Init_spec _ _ _ _ _).1.mem _ _ _ _ (ctl2Init_spec _ _ _ _ _).2.2
    · exact (ctl2Init_spec _ _ _ _ _).2.2

theorem mem_single (k : S × Dir) (v : Sets σ) (d : Dir) (s : Slot) (x : σ) (h : x ∈ v.get d s) :
    mem [(k, v)] k d s x := ⟨v, by simp [Py.dget], h⟩

theorem ctl3_sound {T : Table} {M : Machine σ S} {Den TDen hs} (F : Follows T M Den TDen hs)
    (s : SimSt σ S Nat) (cfg : Config) (hw : s.tape.WF M.initSym) (hdir : s.dir = s.tape.dir)
    (hd : Den (s.dc M.initSym) cfg)
    (fuel : Nat) (h : ctl3 M s fuel = true) : NeverHalts T cfg := by
  unfold ctl3 at h
  obtain ⟨sl, al, ll, hl0, hl1, hl2, hl3⟩ := ctl3_init (hw .L)
  obtain ⟨sr, ar, lr, hr0, hr1, hr2, hr3⟩ := ctl3_init (hw .R)
  rw [hl0, hr0] at h
  obtain ⟨table, new, hle, hr, -, -, hm⟩ := loop_spec (by simp) fuel _ h
  refine covered_never F (Cov3 M.initSym table) (cov3_step hr hm) _ _ hd (fun d => ?_)
  have key : ∀ d s' x, s' ∈ [Slot.A, .B] → x ∈ (Sets.mk sl sr).get d s' →
      mem table (s.st, s.tape.dir) d s' x := by
    intro d s' x hs hmem
    rw [← hdir]
    exact hle.mem _ _ _ _ hs (mem_single _ _ _ _ _ hmem)
  cases d
  · exact ⟨al, ll, hl1, key _ _ _ (by simp) hl2, fun x hx => key _ _ _ (by simp) (hl3 x hx)⟩
  · exact ⟨ar, lr, hr1, key _ _ _ (by simp) hr2, fun x hx => key _ _ _ (by simp) (hr3 x hx)⟩

theorem ctl4_sound {T : Table} {M : Machine σ S} {Den TDen hs} (F : Follows T M Den TDen hs)
    (s : SimSt σ S Nat) (cfg : Config) (hw : s.tape.WF M.initSym) (hdir : s.dir = s.tape.dir)
    (hd : Den (s.dc M.initSym) cfg)
    (hok : ∀ d, (s.tape.half d).length ≤ 3 ∨
      ∀ b, (s.tape.half d).dropLast.getLast? = some b → longer b 2 = false)
    (fuel : Nat) (h : ctl4 M s fuel = true) : NeverHalts T cfg := by
  unfold ctl4 at h
  obtain ⟨sl, ll, bl, el, hl0, hl1, hl2, hl3, hl4⟩ := ctl4_init (hw .L) (hok .L)
  obtain ⟨sr, lr, br, er, hr0, hr1, hr2, hr3, hr4⟩ := ctl4_init (hw .R) (hok .R)
  rw [hl0, hr0] at h
  obtain ⟨table, new, hle, hr, -, -, hm⟩ := loop_spec (by simp) fuel _ h
  refine covered_never F (Cov4 M.initSym table) (cov4_step hr hm) _ _ hd (fun d => ?_)
  have key : ∀ d s' x, s' ∈ [Slot.A, .B, .C] → x ∈ (Sets.mk sl sr).get d s' →
      mem table (s.st, s.tape.dir) d s' x := by
    intro d s' x hs hmem
    rw [← hdir]
    exact hle.mem _ _ _ _ hs (mem_single _ _ _ _ _ hmem)
  cases d
  · exact ⟨ll, bl, el, hl1, fun x hx => key _ _ _ (by simp) (hl2 x hx), key _ _ _ (by simp) hl3,
      key _ _ _ (by simp) hl4⟩
  · exact ⟨lr, br, er, hr1, fun x hx => key _ _ _ (by simp) (hr2 x hx), key _ _ _ (by simp) hr3,
      key _ _ _ (by simp) hr4⟩

/-- `test_CTL` of any kind is sound if the CTL is -/
theorem testCTL_sound {T : Table} {M : Machine σ S} {Den TDen hs} (F : Follows T M Den TDen hs)
    (hden : Den (initDC M) Spec.init) (ctl : SimSt σ S Nat → Nat → Bool) (cutoff fuel : Nat)
    (hctl : ∀ s cfg, s = SimSt.seek M cutoff (SimSt.init natOps M) → s.tape.WF M.initSym → s.dir = s.tape.dir →
      Den (s.dc M.initSym) cfg → ctl s fuel = true → NeverHalts T cfg)
    (h : testCTL ctl M cutoff fuel = true) : NeverHalts T Spec.init := by
  unfold testCTL at h
  obtain ⟨m, hm, -⟩ := seek_done F hden cutoff
  simp only at h
  split at h
  · cases h
  · next hop =>
    have hop' : (SimSt.after M m).op = .running := by rw [← hm]; simpa using hop
    have H := (after_ok F hden m).1
    have := hctl _ (run T (SimSt.after M m).steps Spec.init) rfl (hm ▸ H.wf) (hm ▸ H.dir)
      (by rw [hm]; exact H.run (Or.inl hop')) h
    exact neverHalts_of_run this

end Model.CTL
