import Verif.Lemmas.CTL
import Mathlib.Data.Finset.Prod
import Mathlib.Data.Finset.Card

/-! The loop of the closed tape language filters comes to an end. -/

namespace Model.CTL
open Spec (Dir)

variable {σ S : Type} [DecidableEq σ] [DecidableEq S]

/-- The loop started with `t` ends within `n` rounds, one way or the other. -/
def Ends (round : Tab σ S → Option (Tab σ S)) (ks : List Slot) : Nat → Tab σ S → Prop
  | 0, _ => False
  | n + 1, t =>
    match round t with
    | none => True
    | some new => tabEq t (complete new t ks) = true ∨ Ends round ks n (complete new t ks)

/-- Keys and symbols of the table are among those given, and only the slots `ks` are in use. -/
structure Within (U : Finset (S × Dir)) (V : Finset σ) (ks : List Slot) (t : Tab σ S) : Prop where
  nodup : Py.NodupKeys t
  key : ∀ e ∈ t, e.1 ∈ U
  sym : ∀ e ∈ t, ∀ d s x, x ∈ e.2.get d s → x ∈ V ∧ s ∈ ks

variable {U : Finset (S × Dir)} {V : Finset σ} {ks : List Slot}

theorem mem_dset_cases {κ ν : Type} [DecidableEq κ] {d : List (κ × ν)} {k : κ} {v : ν} {e : κ × ν}
    (h : e ∈ Py.dset d k v) : e = (k, v) ∨ e ∈ d := by
  induction d with
  | nil => left; simpa [Py.dset] using h
  | cons a d ih =>
    unfold Py.dset at h
    split at h
    · rcases List.mem_cons.1 h with h | h
      · exact Or.inl h
      · exact Or.inr (List.mem_cons_of_mem _ h)
    · rcases List.mem_cons.1 h with h | h
      · exact Or.inr (by rw [h]; exact List.mem_cons_self)
      · exact (ih h).imp id (List.mem_cons_of_mem _)

omit [DecidableEq σ] [DecidableEq S] in
theorem Within.nil : Within U V ks ([] : Tab σ S) :=
  ⟨by simp [Py.NodupKeys], (fun _ h => by cases h), (fun _ h => by cases h)⟩

theorem Within.upd {t : Tab σ S} (h : Within U V ks t) {k : S × Dir} (hk : k ∈ U) (d : Dir) {s : Slot}
    (hs : s ∈ ks) {xs : List σ} (hx : ∀ x ∈ xs, x ∈ V) : Within U V ks (upd t k d s xs) := by
  refine ⟨Py.nodup_dset h.nodup _ _, fun e he => ?_, fun e he d' s' x hm => ?_⟩
  · rcases mem_dset_cases he with rfl | he
    · exact hk
    · exact h.key e he
  · rcases mem_dset_cases he with rfl | he
    · rcases (mem_add _ _ _ _ _ _ _).1 hm with hm | ⟨_, rfl, hm'⟩
      · cases hg : Py.dget t k with
        | none => rw [hg] at hm; cases d' <;> cases s' <;> cases hm
        | some v =>
          rw [hg] at hm
          exact h.sym _ (dget_entry hg) d' s' x hm
      · exact ⟨hx x hm', hs⟩
    · exact h.sym e he d' s' x hm

theorem foldl_inv {α β : Type} (P : β → Prop) (f : β → α → β) (l : List α)
    (hf : ∀ b, ∀ a ∈ l, P b → P (f b a)) (b : β) (h : P b) : P (l.foldl f b) := by
  induction l generalizing b with
  | nil => exact h
  | cons a l ih =>
    exact ih (fun b a ha => hf b a (List.mem_cons_of_mem _ ha)) _ (hf b a List.mem_cons_self h)

theorem foldlM_inv {α β : Type} (P : β → Prop) (f : β → α → Option β) (l : List α)
    (hf : ∀ b, ∀ a ∈ l, ∀ b', P b → f b a = some b' → P b') (b r : β) (h : P b)
    (e : l.foldlM f b = some r) : P r := by
  induction l generalizing b with
  | nil => simp at e; rw [← e]; exact h
  | cons a l ih =>
    rw [List.foldlM_cons] at e
    obtain ⟨b1, h1, h2⟩ := bind_some e
    exact ih (fun b a ha => hf b a (List.mem_cons_of_mem _ ha)) _ (hf b a List.mem_cons_self b1 h h1) h2

theorem Within.updAll {t : Tab σ S} (h : Within U V ks t) {k : S × Dir} (hk : k ∈ U) {old : Sets σ}
    (ho : ∀ d s x, x ∈ old.get d s → x ∈ V) (ds : List Dir) {ks' : List Slot} (hks : ∀ s ∈ ks', s ∈ ks) :
    Within U V ks (updAll t k old ds ks') :=
  foldl_inv _ _ _ (fun _ d _ hb => foldl_inv _ _ _ (fun _ s hs hb' =>
    hb'.upd hk d (hks s hs) (fun x hx => ho d s x hx)) _ hb) _ h

theorem Within.complete {new t : Tab σ S} (hn : Within U V ks new) (ht : Within U V ks t) :
    Within U V ks (complete new t ks) :=
  foldl_inv _ _ _ (fun _ e he hb => hb.updAll (ht.key e he) (fun d s x hx => (ht.sym e he d s x hx).1) _
    (fun _ h => h)) _ hn

theorem tabEq_of {t u : Tab σ S} (nt : Py.NodupKeys t) (nu : Py.NodupKeys u) (h1 : Le t u) (h2 : Le u t) :
    tabEq t u = true := by
  unfold tabEq
  rw [Bool.and_eq_true, List.all_eq_true, List.all_eq_true]
  constructor
  · intro e he
    have hg : Py.dget t e.1 = some e.2 := (Py.mem_iff_dget nt e.1 e.2).1 he
    obtain ⟨v, hv⟩ := h1.has e.1 ⟨_, hg⟩
    rw [hv]
    have key : ∀ d s, setEq (e.2.get d s) (v.get d s) = true := by
      intro d s
      unfold setEq
      rw [Bool.and_eq_true, List.all_eq_true, List.all_eq_true]
      constructor
      · intro x hx
        obtain ⟨v', hv', hx'⟩ := h1.mem e.1 d s x ⟨_, hg, hx⟩
        rw [hv] at hv'
        cases hv'
        simpa using hx'
      · intro x hx
        obtain ⟨v', hv', hx'⟩ := h2.mem e.1 d s x ⟨_, hv, hx⟩
        rw [hg] at hv'
        cases hv'
        simpa using hx'
    simp only [Side.eqv, Bool.and_eq_true]
    exact ⟨⟨⟨key .L .A, key .L .B⟩, key .L .C⟩, ⟨key .R .A, key .R .B⟩, key .R .C⟩
  · intro e he
    have hg : Py.dget u e.1 = some e.2 := (Py.mem_iff_dget nu e.1 e.2).1 he
    obtain ⟨v, hv⟩ := h2.has e.1 ⟨_, hg⟩
    simp [hv]

theorem Within.le_complete {new t : Tab σ S} (ht : Within U V ks t) (hk : ks ≠ []) :
    Le t (CTL.complete new t ks) := by
  have h := complete_leOn new t hk
  refine ⟨h.has, fun k d s x hm => ?_⟩
  obtain ⟨v, hv, hx⟩ := hm
  exact h.mem k d s x (ht.sym _ (dget_entry hv) d s x hx).2 ⟨v, hv, hx⟩

/-- What a table can say: that a key is there, or that a symbol is in one of its sets. -/
abbrev Fact (σ S : Type) := (S × Dir) × Option (Dir × Slot × σ)

def Says (t : Tab σ S) (f : Fact σ S) : Prop :=
  match f.2 with
  | none => has t f.1
  | some (d, s, x) => mem t f.1 d s x

/-- All that can be said with the given keys and symbols. -/
def facts (U : Finset (S × Dir)) (V : Finset σ) : Finset (Fact σ S) :=
  U ×ˢ insert none (((({.L, .R} : Finset Dir) ×ˢ (({.A, .B, .C} : Finset Slot) ×ˢ V))).image some)

theorem Within.says {t : Tab σ S} (h : Within U V ks t) {f : Fact σ S} (hf : Says t f) : f ∈ facts U V := by
  obtain ⟨k, o⟩ := f
  unfold facts
  rw [Finset.mem_product]
  cases o with
  | none =>
    obtain ⟨v, hv⟩ := hf
    exact ⟨h.key _ (dget_entry hv), by simp⟩
  | some p =>
    obtain ⟨d, s, x⟩ := p
    obtain ⟨v, hv, hx⟩ := hf
    refine ⟨h.key _ (dget_entry hv), ?_⟩
    have hxV := (h.sym _ (dget_entry hv) d s x hx).1
    simp only [Finset.mem_insert, reduceCtorEq, Finset.mem_image, Finset.mem_product, false_or]
    refine ⟨(d, s, x), ⟨?_, ?_, hxV⟩, rfl⟩
    · cases d <;> simp
    · cases s <;> simp

open Classical in
theorem ends_of {round : Tab σ S → Option (Tab σ S)} (hk : ks ≠ [])
    (hr : ∀ t new, Within U V ks t → round t = some new → Within U V ks new) (n : Nat) (t : Tab σ S)
    (ht : Within U V ks t)
    (hn : (facts U V).card < n + ((facts U V).filter (Says t)).card) : Ends round ks n t := by
  induction n generalizing t with
  | zero =>
    have := Finset.card_le_card (Finset.filter_subset (Says t) (facts U V))
    omega
  | succ n ih =>
    unfold Ends
    cases e : round t with
    | none => trivial
    | some new =>
      simp only
      have hw := (hr t new ht e).complete ht
      have hle := ht.le_complete (new := new) hk
      by_cases heq : Le (complete new t ks) t
      · exact Or.inl (tabEq_of ht.nodup hw.nodup hle heq)
      · right
        refine ih _ hw ?_
        have hlt : ((facts U V).filter (Says t)).card <
            ((facts U V).filter (Says (complete new t ks))).card := by
          apply Finset.card_lt_card
          rw [Finset.ssubset_iff_of_subset]
          · by_contra hno
            apply heq
            have all : ∀ f, Says (complete new t ks) f → Says t f := by
              intro f hf
              by_contra hnf
              exact hno ⟨f, Finset.mem_filter.2 ⟨hw.says hf, hf⟩, fun h => hnf (Finset.mem_filter.1 h).2⟩
            exact ⟨fun k hk => all (k, none) hk, fun k d s x hm => all (k, some (d, s, x)) hm⟩
          · intro f hf
            rw [Finset.mem_filter] at hf ⊢
            refine ⟨hf.1, ?_⟩
            obtain ⟨k, o⟩ := f
            cases o with
            | none => exact hle.has k hf.2
            | some p => exact hle.mem k p.1 p.2.1 p.2.2 hf.2
        omega

/-- Running transitions from the given symbols, states and directions lead to such again. -/
structure Closed (M : Machine σ S) (U : Finset (S × Dir)) (V : Finset σ) : Prop where
  blank : M.initSym ∈ V
  step : ∀ a ∈ V, ∀ k ∈ U, (M.trans a k.1 k.2).cond = .running →
    (M.trans a k.1 k.2).sym ∈ V ∧ ((M.trans a k.1 k.2).st, (M.trans a k.1 k.2).dir) ∈ U

theorem Closed.run {M : Machine σ S} (C : Closed M U V) {a : σ} {k : S × Dir} {t : Trans σ S} (ha : a ∈ V)
    (hk : k ∈ U) (h : runTrans M a k = some t) : t.sym ∈ V ∧ (t.st, t.dir) ∈ U := by
  obtain ⟨rfl, hc⟩ := runTrans_spec h
  exact C.step a ha k hk hc

omit [DecidableEq σ] in
theorem mem_one {x y : σ} (h : x ∈ V) : y ∈ [x] → y ∈ V := by
  intro hy
  rw [List.mem_singleton] at hy
  rw [hy]; exact h

theorem ctl1Round_within {M : Machine σ S} (C : Closed M U V) (t new : Tab σ S) (ht : Within U V [.A] t)
    (h : ctl1Round M t = some new) : Within U V [.A] new := by
  refine foldlM_inv _ _ _ (fun b e he b' hb h => ?_) _ _ Within.nil h
  have ho : ∀ d s x, x ∈ e.2.get d s → x ∈ V := fun d s x hx => (ht.sym e he d s x hx).1
  obtain ⟨b1, h1, h2⟩ := bind_some h
  have hb1 : Within U V [.A] b1 := by
    refine foldlM_inv _ _ _ (fun b a ha b' hb h => ?_) _ _ hb h1
    obtain ⟨t', ht', h⟩ := bind_some h
    cases h
    obtain ⟨c1, c2⟩ := C.run (ho _ _ _ ha) (ht.key e he) ht'
    exact (hb.updAll c2 ho _ (by simp)).upd c2 _ (by simp) (fun _ => mem_one c1)
  obtain ⟨t', ht', h⟩ := bind_some h2
  cases h
  obtain ⟨c1, c2⟩ := C.run C.blank (ht.key e he) ht'
  exact (hb1.upd c2 _ (by simp) (fun x hx => ho _ _ x hx)).upd c2 _ (by simp) (fun _ => mem_one c1)

theorem ctl2Round_within {M : Machine σ S} (C : Closed M U V) (t new : Tab σ S) (ht : Within U V [.A, .B] t)
    (h : ctl2Round M t = some new) : Within U V [.A, .B] new := by
  refine foldlM_inv _ _ _ (fun b e he b' hb h => ?_) _ _ Within.nil h
  have ho : ∀ d s x, x ∈ e.2.get d s → x ∈ V := fun d s x hx => (ht.sym e he d s x hx).1
  obtain ⟨b1, h1, h2⟩ := bind_some h
  have hb1 : Within U V [.A, .B] b1 := by
    refine foldlM_inv _ _ _ (fun b a ha b' hb h => ?_) _ _ hb h1
    obtain ⟨t', ht', h⟩ := bind_some h
    cases h
    obtain ⟨c1, c2⟩ := C.run (ho _ _ _ ha) (ht.key e he) ht'
    exact (hb.updAll c2 ho _ (by simp)).upd c2 _ (by simp) (fun _ => mem_one c1)
  refine foldlM_inv _ _ _ (fun b a ha b' hb h => ?_) _ _ hb1 h2
  obtain ⟨t', ht', h⟩ := bind_some h
  obtain ⟨c1, c2⟩ := C.run (ho _ _ _ ha) (ht.key e he) ht'
  have hu := hb.updAll c2 ho [e.1.2.other] (ks' := [.A, .B]) (by simp)
  split at h <;> cases h
  · exact (hu.upd c2 _ (by simp) (fun _ => mem_one c1)).upd c2 _ (by simp) (fun _ => mem_one C.blank)
  · exact hu.upd c2 _ (by simp) (fun _ => mem_one c1)

theorem ctl3Round_within {M : Machine σ S} (C : Closed M U V) (t new : Tab σ S) (ht : Within U V [.A, .B] t)
    (h : ctl3Round M t = some new) : Within U V [.A, .B] new := by
  refine foldlM_inv _ _ _ (fun b e he b' hb h => ?_) _ _ Within.nil h
  have ho : ∀ d s x, x ∈ e.2.get d s → x ∈ V := fun d s x hx => (ht.sym e he d s x hx).1
  refine foldlM_inv _ _ _ (fun b a ha b' hb h => ?_) _ _ hb h
  obtain ⟨t', ht', h⟩ := bind_some h
  obtain ⟨c1, c2⟩ := C.run (ho _ _ _ ha) (ht.key e he) ht'
  simp only at h
  split at h <;> cases h
  · exact (((hb.upd c2 _ (by simp) (ho _ _)).upd c2 _ (by simp) (ho _ _)).upd c2 _ (by simp)
      (fun _ => mem_one c1)).upd c2 _ (by simp) (ho _ _)
  · exact (((((hb.upd c2 _ (by simp) (ho _ _)).upd c2 _ (by simp) (fun _ => mem_one C.blank)).upd c2 _
      (by simp) (ho _ _)).upd c2 _ (by simp) (fun _ => mem_one c1)).upd c2 _ (by simp) (ho _ _)).upd c2 _
      (by simp) (ho _ _)

theorem ctl4Round_within {M : Machine σ S} (C : Closed M U V) (t new : Tab σ S)
    (ht : Within U V [.A, .B, .C] t) (h : ctl4Round M t = some new) : Within U V [.A, .B, .C] new := by
  refine foldlM_inv _ _ _ (fun b e he b' hb h => ?_) _ _ Within.nil h
  have ho : ∀ d s x, x ∈ e.2.get d s → x ∈ V := fun d s x hx => (ht.sym e he d s x hx).1
  obtain ⟨b1, h1, h2⟩ := bind_some h
  have hb1 : Within U V [.A, .B, .C] b1 := by
    refine foldlM_inv _ _ _ (fun b a ha b' hb h => ?_) _ _ hb h1
    obtain ⟨t', ht', h⟩ := bind_some h
    cases h
    obtain ⟨c1, c2⟩ := C.run (ho _ _ _ ha) (ht.key e he) ht'
    exact (hb.updAll c2 ho _ (by simp)).upd c2 _ (by simp) (fun _ => mem_one c1)
  refine foldlM_inv _ _ _ (fun b a ha b' hb h => ?_) _ _ hb1 h2
  obtain ⟨t', ht', h⟩ := bind_some h
  obtain ⟨c1, c2⟩ := C.run (ho _ _ _ ha) (ht.key e he) ht'
  have hu := hb.updAll c2 ho [e.1.2.other] (ks' := [.A, .B, .C]) (by simp)
  simp only at h
  split at h <;> cases h
  · exact ((hu.upd c2 _ (by simp) (fun _ => mem_one c1)).upd c2 _ (by simp) (ho _ _)).upd c2 _ (by simp)
      (fun _ => mem_one C.blank)
  · exact (hu.upd c2 _ (by simp) (fun _ => mem_one c1)).upd c2 _ (by simp) (ho _ _)

/-! ## The tables with which the loops begin -/

omit [DecidableEq σ] in
theorem ctl2Tape_mem {h : List (Blk σ Nat)} {x : σ} (hx : x ∈ ctl2Tape h) : x ∈ h.map (·.sym) := by
  unfold ctl2Tape at hx
  simp only [List.mem_append] at hx
  rcases hx with hx | hx
  · obtain ⟨b, hb, rfl⟩ := List.mem_map.1 hx
    exact List.mem_map_of_mem (List.mem_of_mem_dropLast hb)
  · split at hx
    · rename_i b hb
      have : b ∈ h := List.mem_of_mem_dropLast (List.mem_of_getLast? hb)
      have hxb : x = b.sym := by
        split at hx
        · simpa using hx
        · split at hx
          · simpa using hx
          · cases hx
      rw [hxb]
      exact List.mem_map_of_mem this
    · cases hx

theorem ctl3Side_mem {h : List (Blk σ Nat)} {v : Side σ} (e : ctl3Side h = some v) (s : Slot) (x : σ)
    (hx : x ∈ v.get s) : x ∈ h.map (·.sym) ∧ s ∈ [Slot.A, Slot.B] := by
  unfold ctl3Side at e
  cases h with
  | nil => cases e
  | cons top rest =>
    simp only [Option.some.injEq] at e
    subst e
    have hrest : ∀ y, y ∈ rest.dropLast.map (·.sym) → y ∈ rest.map (·.sym) := by
      intro y hy
      obtain ⟨b, hb, rfl⟩ := List.mem_map.1 hy
      exact List.mem_map_of_mem (List.mem_of_mem_dropLast hb)
    cases s with
    | A => simp [Side.get] at hx; simp [hx]
    | B =>
      refine ⟨?_, by simp⟩
      simp only [Side.get] at hx
      rw [List.map_cons, List.mem_cons]
      split at hx
      · rcases (Py.mem_sadd _ _ _).1 hx with hx | hx
        · exact Or.inl hx
        · exact Or.inr (hrest x hx)
      · exact Or.inr (hrest x hx)
    | C => simp [Side.get] at hx

theorem ctl4Side_mem {p : List (Blk σ Nat)} {v : Side σ} (e : ctl4Side p = some v) (s : Slot) (x : σ)
    (hx : x ∈ v.get s) : x ∈ p.map (·.sym) := by
  have hdrop : ∀ y, y ∈ (p.drop 2).map (·.sym) → y ∈ p.map (·.sym) := by
    intro y hy
    obtain ⟨b, hb, rfl⟩ := List.mem_map.1 hy
    exact List.mem_map_of_mem (List.mem_of_mem_drop hb)
  have hsadd : ∀ (a : List σ) (z : σ), (∀ y ∈ a, y ∈ p.map (·.sym)) → z ∈ p.map (·.sym) →
      ∀ y ∈ Py.sadd a z, y ∈ p.map (·.sym) := by
    intro a z ha hz y hy
    rcases (Py.mem_sadd _ _ _).1 hy with rfl | hy
    · exact hz
    · exact ha y hy
  have fin : ∀ (c : Bool) (a : List σ) (z b c' : σ), (∀ y ∈ a, y ∈ p.map (·.sym)) → z ∈ p.map (·.sym) →
      b ∈ p.map (·.sym) → c' ∈ p.map (·.sym) →
      v = ⟨if c then Py.sadd a z else a, [b], [c']⟩ → x ∈ p.map (·.sym) := by
    intro c a z b c' ha hz hb hc e
    subst e
    cases s with
    | A =>
      simp only [Side.get] at hx
      split at hx
      · exact hsadd a z ha hz x hx
      · exact ha x hx
    | B => rw [List.mem_singleton.1 hx]; exact hb
    | C => rw [List.mem_singleton.1 hx]; exact hc
  unfold ctl4Side at e
  simp only at e
  split at e
  · cases e
  · cases e
    rename_i b0
    exact fin false _ b0.sym _ _ hdrop (by simp) (by simp) (by simp) rfl
  · rename_i b0 b1 rest
    split at e
    · split at e
      · split at e
        · cases e
        · cases e
          refine fin _ _ _ _ _ ?_ (by simp) (by simp) (by simp) rfl
          cases rest with
          | nil => exact hdrop
          | cons b2 rest => exact hsadd _ _ hdrop (by simp)
      · split at e
        · cases e
        · split at e
          · cases e
          · cases e
            exact fin _ _ _ _ _ hdrop (by simp) (by simp) (by simp) rfl
    · cases e
      exact fin false _ b1.sym _ _ hdrop (by simp) (by simp) (by simp) rfl

end Model.CTL
