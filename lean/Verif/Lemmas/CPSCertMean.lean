import Verif.Lemmas.CPSCertText
import Mathlib.Tactic.Ring

/-!
# The printed certificate is an inductive invariant
-/

namespace Model.CPS
open Spec Spec.CPSCert

theorem halves_iff {c : Cfg Nat (Option Nat)} {st : Option Nat} (hcut : c.cut ≤ c.window.length) (l r : Nat → Nat)
    (tape : Int → Nat) (p : Int) :
    Halves (window c.window c.pos c.dir st l r) tape (p + c.cut) ↔
      (∀ i, (h : i < c.window.length) → tape (p + i) = c.window[i]) ∧ (∀ n : Nat, l n = tape (p - 1 - n)) ∧
        (∀ n : Nat, r n = tape (p + c.window.length + n)) := by
  have hlt : (c.window.take c.cut).reverse.length = c.cut := by simp [hcut]
  have hld : (c.window.drop c.cut).length = c.window.length - c.cut := by simp
  have e : Halves (window c.window c.pos c.dir st l r) tape (p + c.cut) ↔
      (∀ i : Nat, pre (c.window.take c.cut).reverse l i = tape (p + c.cut - 1 - i)) ∧
        (∀ i : Nat, pre (c.window.drop c.cut) r i = tape (p + c.cut + i)) := Iff.rfl
  rw [e]
  constructor
  · rintro ⟨h1, h2⟩
    refine ⟨fun i hi => ?_, fun n => ?_, fun n => ?_⟩
    · by_cases hc : i < c.cut
      · have := h1 (c.cut - 1 - i)
        rw [pre_lt _ _ (by omega)] at this
        rw [show p + c.cut - 1 - ((c.cut - 1 - i : Nat) : Int) = p + i by omega] at this
        rw [← this, List.getElem_reverse, List.getElem_take]
        congr 1
        rw [List.length_take]; omega
      · have := h2 (i - c.cut)
        rw [pre_lt _ _ (by omega)] at this
        rw [show p + c.cut + ((i - c.cut : Nat) : Int) = p + i by omega] at this
        rw [← this, List.getElem_drop]
        congr 1
        omega
    · have := h1 ((c.window.take c.cut).reverse.length + n)
      rw [pre_ge] at this
      rw [this, hlt]
      congr 1; omega
    · have := h2 ((c.window.drop c.cut).length + n)
      rw [pre_ge] at this
      rw [this, hld]
      congr 1; omega
  · rintro ⟨h1, h2, h3⟩
    refine ⟨fun i => ?_, fun i => ?_⟩
    · by_cases hc : i < c.cut
      · rw [pre_lt _ _ (by omega), List.getElem_reverse, List.getElem_take]
        have := h1 (c.cut - 1 - i) (by omega)
        rw [show p + c.cut - 1 - i = p + ((c.cut - 1 - i : Nat) : Int) by omega, this]
        congr 1
        rw [List.length_take]; omega
      · rw [show i = (c.window.take c.cut).reverse.length + (i - c.cut) by omega, pre_ge, h2]
        congr 1; omega
    · by_cases hc : i < c.window.length - c.cut
      · rw [pre_lt _ _ (by omega), List.getElem_drop]
        rw [show p + c.cut + i = p + ((c.cut + i : Nat) : Int) by omega, h1 (c.cut + i) (by omega)]
      · rw [show i = (c.window.drop c.cut).length + (i - (c.window.length - c.cut)) by omega, pre_ge, h3]
        congr 1; omega

/-- left and right context as walks -/
theorem ctx_left_iff {E : List (Block × Block)} {D : List Nat → List (List Nat)} (hE : ∀ a b, (a, b) ∈ E ↔ b ∈ D a)
    (k : Nat) (b : Block) (tape : Int → Nat) (p : Int) :
    Ctx (orient .L) k (fun x y => y ∈ D x) b (fun n => tape (p - 1 - n)) ↔
      ∃ f, Walk E k b f ∧ ∀ i j, j < k → (f (i + 1))[j]? = some (tape (p - (i + 1) * k + j)) := by
  have idx : ∀ i j : Nat, j < k → p - 1 - ((i * k + (k - 1 - j) : Nat) : Int) = p - ((i : Int) + 1) * k + j := by
    intro i j hj
    have e : ((k - 1 - j : Nat) : Int) = k - 1 - j := by omega
    rw [Nat.cast_add, Nat.cast_mul, e]; ring
  constructor
  · rintro ⟨f, h0, h1, h2⟩
    refine ⟨f, ⟨h0, fun i => ⟨(hE _ _).2 (h1 i).1, (h1 i).2⟩⟩, fun i j hj => ?_⟩
    have := h2 i (k - 1 - j) (by omega)
    simp only at this
    rw [idx i j hj] at this
    rw [← this]
    show _ = ((f (i + 1)).reverse)[k - 1 - j]?
    rw [List.getElem?_reverse (by rw [(h1 i).2]; omega), (h1 i).2]
    congr 1; omega
  · rintro ⟨f, ⟨h0, h1⟩, h2⟩
    refine ⟨f, h0, fun i => ⟨(hE _ _).1 (h1 i).1, (h1 i).2⟩, fun i j hj => ?_⟩
    have := h2 i (k - 1 - j) (by omega)
    rw [← idx i (k - 1 - j) (by omega), show k - 1 - (k - 1 - j) = j by omega] at this
    show ((f (i + 1)).reverse)[j]? = _
    rw [List.getElem?_reverse (by rw [(h1 i).2]; omega), (h1 i).2, this]

theorem ctx_right_iff {E : List (Block × Block)} {D : List Nat → List (List Nat)} (hE : ∀ a b, (a, b) ∈ E ↔ b ∈ D a)
    (k : Nat) (b : Block) (tape : Int → Nat) (p : Int) :
    Ctx (orient .R) k (fun x y => y ∈ D x) b (fun n => tape (p + n)) ↔
      ∃ f, Walk E k b f ∧ ∀ i j, j < k → (f (i + 1))[j]? = some (tape (p + i * k + j)) := by
  have idx : ∀ i j : Nat, p + ((i * k + j : Nat) : Int) = p + (i : Int) * k + j := by
    intro i j
    rw [Nat.cast_add, Nat.cast_mul]; ring
  constructor
  · rintro ⟨f, h0, h1, h2⟩
    exact ⟨f, ⟨h0, fun i => ⟨(hE _ _).2 (h1 i).1, (h1 i).2⟩⟩, fun i j hj => by rw [← idx]; exact h2 i j hj⟩
  · rintro ⟨f, ⟨h0, h1⟩, h2⟩
    exact ⟨f, h0, fun i => ⟨(hE _ _).1 (h1 i).1, (h1 i).2⟩, fun i j hj => by
      show (f (i + 1))[j]? = some (tape (p + ((i * k + j : Nat) : Int)))
      rw [idx]; exact h2 i j hj⟩

theorem known_iff {g : G} {c : Cfg Nat (Option Nat)} :
    (∃ t, Py.dget g.trans c = some t) ↔ ∃ e ∈ g.trans, e.1 = c := by
  unfold Py.dget
  constructor
  · rintro ⟨t, h⟩
    rw [Option.map_eq_some_iff] at h
    obtain ⟨e, he, -⟩ := h
    exact ⟨e, List.mem_of_find?_eq_some he, by simpa using List.find?_some he⟩
  · rintro ⟨e, he, rfl⟩
    cases hf : g.trans.find? (fun x => x.1 == e.1) with
    | some e => exact ⟨e.2, rfl⟩
    | none =>
      rw [List.find?_eq_none] at hf
      exact absurd (hf e he) (by simp)

theorem describes_iff {T : Table} {k w : Nat} (hw : 2 * k ≤ w) {g : G} (S : Success T k w g) {C : Cert}
    (hL : C.left = g.edgeList .L) (hR : C.right = g.edgeList .R)
    (hW : ∀ win, win ∈ C.windows ↔ ∃ e ∈ g.trans, e.1.win = win) (cfg : Config) :
    Describes C k cfg ↔ ∃ c, Cov k w g c cfg := by
  have hEL : ∀ a b, (a, b) ∈ C.left ↔ b ∈ g.dsts .L a := fun a b => by rw [hL]; exact mem_edgeList S.cert .L a b
  have hER : ∀ a b, (a, b) ∈ C.right ↔ b ∈ g.dsts .R a := fun a b => by rw [hR]; exact mem_edgeList S.cert .R a b
  have hcut : ∀ e ∈ g.trans, e.1.cut ≤ e.1.window.length := by
    intro e he
    have := (S.cert.trans e he).1
    have h1 := this.lo
    have h2 := this.hi
    have h3 := this.len
    unfold Cfg.cut
    cases e.1.dir <;> simp only <;> omega
  constructor
  · rintro ⟨win, hwin, p, f, f', hst, hpos, htape, hwl, htl, hwr, htr⟩
    obtain ⟨e, he, rfl⟩ := (hW win).1 hwin
    have hC := (S.cert.trans e he).1
    have hgood := (S.inv.trans e.1 _ (known_iff.2 ⟨e, he, rfl⟩).choose_spec).1
    have hwd : e.1.win.left ++ e.1.win.right = e.1.window := List.take_append_drop _ _
    have hll : e.1.win.left.length = e.1.cut := by
      show (e.1.window.take e.1.cut).length = _
      rw [List.length_take]; have := hcut e he; omega
    rw [hll] at hpos
    simp only [hwd] at htape hwl hwr htr
    obtain ⟨q, hq, -⟩ := hC.st
    have hst' : cfg.state = e.1.st := by rw [hst, hq]; simp [Cfg.win, hq]
    refine ⟨e.1, known_iff.2 ⟨e, he, rfl⟩, hC.len, hgood.pos, fun n => cfg.tape (p - 1 - n),
      fun n => cfg.tape (p + e.1.window.length + n), ⟨p + e.1.cut,
        (halves_iff (hcut e he) _ _ _ _).2 ⟨htape, fun _ => rfl, fun _ => rfl⟩, hst'.symm,
        by rw [hst]; simp, ?_⟩, ?_, ?_⟩
    · rw [hpos]
      show (match e.1.dir with | .L => _ | .R => _) = (match e.1.dir with | .R => _ | .L => _)
      cases e.1.dir <;> rfl
    · rw [getBlock_L0 _ (by rw [hC.len]; exact hw)]
      exact (ctx_left_iff hEL k _ _ _).2 ⟨f, hwl, htl⟩
    · rw [getBlock_R0 _ (by rw [hC.len]; exact hw)]
      exact (ctx_right_iff hER k _ _ _).2 ⟨f', hwr, htr⟩
  · rintro ⟨c, hk, hlen, hp, l, r, ⟨b, hh, hst, hne, hpos⟩, hl, hr⟩
    obtain ⟨e, he, rfl⟩ := known_iff.1 hk
    have hC := (S.cert.trans e he).1
    have hwd : e.1.win.left ++ e.1.win.right = e.1.window := List.take_append_drop _ _
    have hll : e.1.win.left.length = e.1.cut := by
      show (e.1.window.take e.1.cut).length = _
      rw [List.length_take]; have := hcut e he; omega
    obtain ⟨p, rfl⟩ : ∃ p : Int, b = p + e.1.cut := ⟨b - e.1.cut, by omega⟩
    obtain ⟨h1, h2, h3⟩ := (halves_iff (hcut e he) _ _ _ _).1 hh
    obtain rfl : l = fun n : Nat => cfg.tape (p - 1 - n) := funext h2
    obtain rfl : r = fun n : Nat => cfg.tape (p + e.1.window.length + n) := funext h3
    rw [getBlock_L0 _ (by rw [hlen]; exact hw)] at hl
    rw [getBlock_R0 _ (by rw [hlen]; exact hw)] at hr
    obtain ⟨f, hf1, hf2⟩ := (ctx_left_iff hEL k _ _ _).1 hl
    obtain ⟨f', hf3, hf4⟩ := (ctx_right_iff hER k _ _ _).1 hr
    obtain ⟨q, hq, -⟩ := hC.st
    refine ⟨e.1.win, (hW _).2 ⟨e, he, rfl⟩, p, f, f', ?_, ?_, ?_, ?_, hf2, ?_, ?_⟩
    · rw [← show e.1.st = cfg.state from hst, hq]; simp [Cfg.win, hq]
    · rw [hpos, hll]
      show (match e.1.dir with | .R => _ | .L => _) = (match e.1.dir with | .L => _ | .R => _)
      cases e.1.dir <;> rfl
    · simp only [hwd]; exact h1
    · rw [hwd]; exact hf1
    · rw [hwd]; exact hf3
    · rw [hwd]; exact hf4

/-- the blank tape is described -/
theorem cov_init {T : Table} {k w : Nat} (hw : 2 * k ≤ w) {g : G} (S : Success T k w g) :
    ∃ c, Cov k w g c Spec.init := by
  have hL := S.inv.blank .L
  have hR := S.inv.blank .R
  refine ⟨_, S.start, by simp [Cfg.new], rfl, fun _ => 0, fun _ => 0, ?_, ?_, ?_⟩
  · have hz : ∀ n (l : List Nat), (∀ x ∈ l, x = 0) → pre l (fun _ => 0) n = 0 := by
      intro n l hl
      by_cases hn : n < l.length
      · rw [pre_lt _ _ hn]; exact hl _ (List.getElem_mem _)
      · rw [show n = l.length + (n - l.length) by omega, pre_ge]
    refine ⟨0, ⟨fun i => ?_, fun i => ?_⟩, rfl, by simp [Spec.init], rfl⟩
    · refine hz _ _ (fun x hx => ?_)
      rw [List.mem_reverse] at hx
      exact List.eq_of_mem_replicate (List.mem_of_mem_take hx)
    · refine hz _ _ (fun x hx => ?_)
      exact List.eq_of_mem_replicate (List.mem_of_mem_drop hx)
  · rw [getBlock_L0 _ (by simpa [Cfg.new] using hw)]
    have e : (Cfg.new k (some 0) Dir.R (List.replicate w 0)).window.take k = List.replicate k 0 := by
      simp [Cfg.new]; omega
    rw [e]
    refine ⟨fun _ => List.replicate k 0, rfl, fun i => ⟨hL, by simp⟩, fun i j hj => ?_⟩
    simp [orient, hj]
  · rw [getBlock_R0 _ (by simpa [Cfg.new] using hw)]
    have e : (Cfg.new k (some 0) Dir.R (List.replicate w 0)).window.drop
        ((Cfg.new k (some 0) Dir.R (List.replicate w 0)).window.length - k) = List.replicate k 0 := by
      simp [Cfg.new]; omega
    rw [e]
    refine ⟨fun _ => List.replicate k 0, rfl, fun i => ⟨hR, by simp⟩, fun i j hj => ?_⟩
    simp [orient, hj]

theorem cert_proves {T : Table} {k w : Nat} (hk : 0 < k) (hw : 2 * k ≤ w) {g : G} (S : Success T k w g) {C : Cert}
    (hL : C.left = g.edgeList .L) (hR : C.right = g.edgeList .R)
    (hW : ∀ win, win ∈ C.windows ↔ ∃ e ∈ g.trans, e.1.win = win) : Proves C k T := by
  refine ⟨(describes_iff hw S hL hR hW _).2 (cov_init hw S), fun cfg h => ?_⟩
  obtain ⟨c, hc⟩ := (describes_iff hw S hL hR hW _).1 h
  rcases cov_step hk hw S.closed hc with h' | ⟨m, c', hm, hc'⟩
  · exact Or.inl h'
  · exact Or.inr ⟨m, hm, (describes_iff hw S hL hR hW _).2 ⟨c', hc'⟩⟩

theorem cert_sizes {T : Table} {k w : Nat} {g : G} (S : Success T k w g) (hw : 2 * k ≤ w) {C : Cert}
    (hW : ∀ win, win ∈ C.windows ↔ ∃ e ∈ g.trans, e.1.win = win) :
    ∀ win ∈ C.windows, (win.left ++ win.right).length = w ∧
      (match win.dir with | .L => win.left.length = k | .R => win.right.length = k) := by
  intro win hwin
  obtain ⟨e, he, rfl⟩ := (hW win).1 hwin
  have hgood := (S.inv.trans e.1 _ (known_iff.2 ⟨e, he, rfl⟩).choose_spec).1
  have hlen := hgood.len
  have hpos := hgood.pos
  refine ⟨by rw [show e.1.win.left ++ e.1.win.right = e.1.window from List.take_append_drop _ _]; exact hlen, ?_⟩
  unfold Cfg.win Cfg.cut
  unfold Cfg.new at hpos
  cases hd : e.1.dir <;> rw [hd] at hpos <;> simp only at hpos ⊢
  · rw [List.length_take]; omega
  · rw [List.length_drop]; omega

theorem proves_never {T : Table} {k : Nat} {C : Cert} (h : Proves C k T) : NeverHalts T Spec.init := by
  refine (recurs_never (P := fun cfg => NeverHalts T cfg ∨ Describes C k cfg) (fun _ => True) ?_ ?_
    Spec.init (Or.inr h.1)).1
  · rintro cfg (h | ⟨win, -, p, f, f', hst, -⟩)
    · exact h 0
    · rw [hst]; simp
  · rintro cfg (h' | h')
    · exact ⟨1, by omega, Or.inl (h'.run 1), fun _ _ _ _ => trivial⟩
    · rcases h.2 cfg h' with h' | ⟨m, hm, hd⟩
      · exact ⟨1, by omega, Or.inl (h'.run 1), fun _ _ _ _ => trivial⟩
      · exact ⟨m, hm, Or.inr hd, fun _ _ _ _ => trivial⟩

end Model.CPS
