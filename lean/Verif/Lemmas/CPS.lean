import Verif.Model.CPS
import Verif.Lemmas.SimAbs

namespace Model.CPS
open Spec
set_option linter.unusedSectionVars false

section streams
variable {σ S : Type}

/-- The stream `l` is the concatenation of (oriented) blocks of size `k` that form a path of `E` starting
after the block `b`. -/
def Ctx (o : List σ → List σ) (k : Nat) (E : List σ → List σ → Prop) (b : List σ) (l : Nat → σ) : Prop :=
  ∃ f : Nat → List σ, f 0 = b ∧ (∀ i, E (f i) (f (i + 1)) ∧ (f (i + 1)).length = k) ∧
    ∀ i j, j < k → (o (f (i + 1)))[j]? = some (l (i * k + j))

theorem ctx_pop {o : List σ → List σ} (ho : ∀ l, (o l).length = l.length) {k : Nat} {E : List σ → List σ → Prop}
    {b : List σ} {l : Nat → σ} (h : Ctx o k E b l) :
    ∃ b' l', E b b' ∧ b'.length = k ∧ l = pre (o b') l' ∧ Ctx o k E b' l' := by
  obtain ⟨f, h0, h1, h2⟩ := h
  refine ⟨f 1, fun n => l (n + k), h0 ▸ (h1 0).1, (h1 0).2, ?_, fun i => f (i + 1), rfl, fun i => h1 (i + 1),
    fun i j hj => ?_⟩
  · have hlen : (o (f 1)).length = k := by rw [ho]; exact (h1 0).2
    funext n
    by_cases hn : n < k
    · rw [pre_lt _ _ (by omega)]
      have := h2 0 n hn
      simp only [Nat.zero_mul, Nat.zero_add] at this
      rw [List.getElem?_eq_getElem (by omega)] at this
      exact (Option.some.inj this).symm
    · have e : n = (o (f 1)).length + (n - k) := by omega
      rw [e, pre_ge]
      congr 1; omega
  · rw [h2 (i + 1) j hj]
    congr 2
    rw [Nat.add_mul]; omega

theorem ctx_push {o : List σ → List σ} (ho : ∀ l, (o l).length = l.length) {k : Nat} {E : List σ → List σ → Prop}
    {b old n0 : List σ} {l : Nat → σ} (h : Ctx o k E old l) (he : E b n0) (hl : n0.length = k)
    (hsub : ∀ dst, E old dst → E n0 dst) : Ctx o k E b (pre (o n0) l) := by
  obtain ⟨f, h0, h1, h2⟩ := h
  have hlen : (o n0).length = k := by rw [ho, hl]
  refine ⟨fun i => match i with | 0 => b | 1 => n0 | i + 2 => f (i + 1), rfl, fun i => ?_, fun i j hj => ?_⟩
  · match i with
    | 0 => exact ⟨he, hl⟩
    | 1 => exact ⟨hsub _ (h0 ▸ (h1 0).1), (h1 0).2⟩
    | i + 2 => exact h1 (i + 1)
  · match i with
    | 0 =>
      have hj' : j < (o n0).length := by omega
      rw [Nat.zero_mul, Nat.zero_add 1, Nat.zero_add j, pre_lt _ _ hj']
      exact List.getElem?_eq_getElem hj'
    | i + 1 =>
      have e : (i + 1) * k + j = (o n0).length + (i * k + j) := by rw [Nat.add_mul]; omega
      rw [e, pre_ge]
      exact h2 i j hj

/-! ## Blocks of a window -/

theorem slice_nat (xs : List σ) {s e : Nat} (hs : s ≤ xs.length) (he : e ≤ xs.length) :
    pySlice xs s e = (xs.drop s).take (e - s) := by
  unfold pySlice
  simp only
  rw [if_neg (by omega), if_neg (by omega)]
  congr 1
  · omega
  · congr 1; omega

theorem getBlock_L0 {k : Nat} (c : Cfg σ S) (h : 2 * k ≤ c.window.length) :
    c.getBlock k .L 0 = c.window.take k := by
  unfold Cfg.getBlock
  simp only
  have := slice_nat c.window (s := 0) (e := k) (by omega) (by omega)
  simpa using this

theorem getBlock_L1 {k : Nat} (c : Cfg σ S) (h : 2 * k ≤ c.window.length) :
    c.getBlock k .L 1 = (c.window.drop k).take k := by
  unfold Cfg.getBlock
  simp only
  have := slice_nat c.window (s := k) (e := 2 * k) (by omega) (by omega)
  rw [show 2 * k - k = k by omega] at this
  rw [← this]
  congr 1 <;> push_cast <;> omega

theorem getBlock_R0 {k : Nat} (c : Cfg σ S) (h : 2 * k ≤ c.window.length) :
    c.getBlock k .R 0 = c.window.drop (c.window.length - k) := by
  unfold Cfg.getBlock
  simp only
  have := slice_nat c.window (s := c.window.length - k) (e := c.window.length) (by omega) (by omega)
  rw [List.take_of_length_le (by rw [List.length_drop])] at this
  rw [← this]
  congr 1 <;> push_cast <;> omega

theorem getBlock_R1 {k : Nat} (c : Cfg σ S) (h : 2 * k ≤ c.window.length) :
    c.getBlock k .R 1 = (c.window.drop (c.window.length - 2 * k)).take k := by
  unfold Cfg.getBlock
  simp only
  have := slice_nat c.window (s := c.window.length - 2 * k) (e := c.window.length - k) (by omega) (by omega)
  rw [show c.window.length - k - (c.window.length - 2 * k) = k by omega] at this
  rw [← this]
  congr 1 <;> push_cast <;> omega

theorem shift_R {k : Nat} (c : Cfg σ S) (h : 2 * k ≤ c.window.length) (hd : c.dir = .R) (f : List σ) :
    c.shiftFront k f = Cfg.new k c.st .R (c.window.drop k ++ f) := by
  unfold Cfg.shiftFront
  rw [hd]
  simp only
  rw [slice_nat c.window (by omega) (le_refl _), List.take_of_length_le (by rw [List.length_drop])]

theorem shift_L {k : Nat} (c : Cfg σ S) (h : 2 * k ≤ c.window.length) (hd : c.dir = .L) (f : List σ) :
    c.shiftFront k f = Cfg.new k c.st .L (f ++ c.window.take (c.window.length - k)) := by
  unfold Cfg.shiftFront
  rw [hd]
  simp only
  have := slice_nat c.window (s := 0) (e := c.window.length - k) (by omega) (by omega)
  rw [show (c.window.length : Int) - k = ((c.window.length - k : Nat) : Int) by omega]
  rw [show (0 : Int) = ((0 : Nat) : Int) by rfl, this]
  rfl

/-- Leaving a window on the right and shifting it. -/
theorem window_shift_R {k : Nat} (w : List σ) (hk : k ≤ w.length) (b : List σ) (hb : b.length = k) (st : S)
    (l r : Nat → σ) :
    window (w.drop k ++ b) ((w.length : Int) - k) .R st (pre (w.take k).reverse l) r =
      window w w.length .R st l (pre b r) := by
  unfold window
  simp only
  have e1 : ((w.length : Int) - k).toNat = w.length - k := by omega
  have e2 : ((w.length : Int)).toNat = w.length := by omega
  rw [e1, e2]
  congr 1
  funext d
  have hl : (w.drop k).length = w.length - k := List.length_drop
  cases d
  · simp only
    rw [List.take_left' hl, List.take_length, ← pre_append, ← List.reverse_append, List.take_append_drop]
  · simp only
    rw [List.drop_left' hl, List.drop_length, pre_nil]

theorem window_shift_L {k : Nat} (w : List σ) (hk : k ≤ w.length) (b : List σ) (hb : b.length = k) (st : S)
    (l r : Nat → σ) :
    window (b ++ w.take (w.length - k)) ((k : Int) - 1) .L st l (pre (w.drop (w.length - k)) r) =
      window w (-1) .L st (pre b.reverse l) r := by
  unfold window
  simp only
  have e1 : ((k : Int) - 1 + 1).toNat = k := by omega
  have e2 : ((-1 : Int) + 1).toNat = 0 := by omega
  rw [e1, e2]
  congr 1
  funext d
  cases d
  · simp only
    rw [List.take_left' hb, List.take_zero, List.reverse_nil, pre_nil]
  · simp only
    rw [List.drop_left' hb, List.drop_zero, ← pre_append, List.take_append_drop]

end streams

/-! ## Soundness of a closed graph -/

/-- The graph is closed: what `update_set` would add for any evaluated configuration is there. -/
structure Closed (T : Table) (k w : Nat) (g : CGS Nat (Option Nat)) : Prop where
  sim : ∀ c t, Py.dget g.trans c = some t →
    (∃ m, t = simLimited (simple T) c.st c.window c.pos c.dir m) ∧ (t.cond = .running ∨ t.cond = .infRepeat)
  edge : ∀ c t, Py.dget g.trans c = some t → t.cond = .running →
    (postConfig t).getBlock k t.dir.other 0 ∈ g.dsts t.dir.other ((postConfig t).getBlock k t.dir.other 1)
  back : ∀ c t, Py.dget g.trans c = some t → t.cond = .running →
    ∀ dst ∈ g.dsts t.dir.other (c.getBlock k t.dir.other 0),
      dst ∈ g.dsts t.dir.other ((postConfig t).getBlock k t.dir.other 0)
  front : ∀ c t, Py.dget g.trans c = some t → t.cond = .running →
    ∀ f ∈ g.dsts t.dir (c.getBlock k t.dir 0), ∃ t', Py.dget g.trans ((postConfig t).shiftFront k f) = some t'

def orient : Dir → List Nat → List Nat
  | .L => List.reverse
  | .R => id

theorem orient_length (d : Dir) (l : List Nat) : (orient d l).length = l.length := by
  cases d <;> simp [orient]

/-- a configuration of the machine described by an evaluated window and the graphs -/
structure Cov (k w : Nat) (g : CGS Nat (Option Nat)) (c : Cfg Nat (Option Nat)) (cfg : Config) : Prop where
  known : ∃ t, Py.dget g.trans c = some t
  len : c.window.length = w
  pos : c.pos = (Cfg.new k c.st c.dir c.window).pos
  mean : ∃ l r, Represents (window c.window c.pos c.dir c.st l r) cfg ∧
    Ctx (orient .L) k (fun a b => b ∈ g.dsts .L a) (c.getBlock k .L 0) l ∧
    Ctx (orient .R) k (fun a b => b ∈ g.dsts .R a) (c.getBlock k .R 0) r

theorem cov_step {T : Table} {k w : Nat} (hk : 0 < k) (hw : 2 * k ≤ w) {g : CGS Nat (Option Nat)}
    (H : Closed T k w g) {c : Cfg Nat (Option Nat)} {cfg : Config} (h : Cov k w g c cfg) :
    NeverHalts T cfg ∨ ∃ m c', 0 < m ∧ Cov k w g c' (run T m cfg) := by
  obtain ⟨⟨t, ht⟩, hlen, hpos, l, r, hrep, hl, hr⟩ := h
  obtain ⟨⟨m, hm⟩, hcond⟩ := H.sim c t ht
  have hp0 : 0 ≤ c.pos ∧ c.pos < c.window.length := by
    rw [hpos]; unfold Cfg.new
    cases c.dir <;> simp only <;> omega
  have L := simLimited_spec (simple_follows T) c.st c.window c.pos c.dir m hp0.1 hp0.2 hrep
  rw [← hm] at L
  rcases hcond with hc | hc
  · right
    obtain ⟨hsteps, hden, -⟩ := L.run hc
    have hslen : t.sym.length = w := by rw [L.length (by rw [hc]; simp), hlen]
    have hplen : (postConfig t).window.length = w := hslen
    have he := H.edge c t ht hc
    have hb := H.back c t ht hc
    have hf := H.front c t ht hc
    refine ⟨t.steps, ?_⟩
    cases hd : t.dir with
    | R =>
      rw [hd] at he hb hf hden
      simp only [Dir.other] at he hb hf hden
      obtain ⟨b', r', h1, h2, h3, h4⟩ := ctx_pop (orient_length .R) hr
      subst h3
      obtain ⟨t', ht'⟩ := hf b' h1
      rw [shift_R _ (by omega) hd] at ht'
      rw [getBlock_L0 _ (by omega), getBlock_L1 _ (by omega)] at he
      rw [getBlock_L0 (postConfig t) (by omega)] at hb
      refine ⟨_, hsteps, ⟨t', ht'⟩, ?_, rfl, pre (orient .L (t.sym.take k)) l, r', ?_, ?_, ?_⟩
      · show (t.sym.drop k ++ b').length = w
        simp; omega
      · show Represents (window (t.sym.drop k ++ b') (((t.sym.drop k ++ b').length : Int) - k) .R t.st
          (pre (t.sym.take k).reverse l) r') _
        have e : ((t.sym.drop k ++ b').length : Int) = t.sym.length := by simp; omega
        rw [e, window_shift_R _ (by omega) _ h2, hslen, ← hlen]
        exact hden
      · rw [getBlock_L0 _ (by show 2 * k ≤ (t.sym.drop k ++ b').length; simp; omega)]
        show Ctx _ _ _ ((t.sym.drop k ++ b').take k) _
        rw [List.take_append_of_le_length (by rw [List.length_drop]; omega)]
        exact ctx_push (orient_length .L) hl he (by show (t.sym.take k).length = k; simp; omega) hb
      · rw [getBlock_R0 _ (by show 2 * k ≤ (t.sym.drop k ++ b').length; simp; omega)]
        show Ctx _ _ _ ((t.sym.drop k ++ b').drop ((t.sym.drop k ++ b').length - k)) _
        rw [List.drop_left' (by simp; omega)]
        exact h4
    | L =>
      rw [hd] at he hb hf hden
      simp only [Dir.other] at he hb hf hden
      obtain ⟨b', l', h1, h2, h3, h4⟩ := ctx_pop (orient_length .L) hl
      subst h3
      obtain ⟨t', ht'⟩ := hf b' h1
      rw [shift_L _ (by omega) hd] at ht'
      rw [getBlock_R0 _ (by omega), getBlock_R1 _ (by omega)] at he
      rw [getBlock_R0 (postConfig t) (by omega)] at hb
      refine ⟨_, hsteps, ⟨t', ht'⟩, ?_, rfl, l', pre (orient .R (t.sym.drop (t.sym.length - k))) r, ?_, ?_, ?_⟩
      · show (b' ++ t.sym.take (t.sym.length - k)).length = w
        simp; omega
      · show Represents (window (b' ++ t.sym.take (t.sym.length - k)) ((k : Int) - 1) .L t.st l'
          (pre (t.sym.drop (t.sym.length - k)) r)) _
        rw [window_shift_L _ (by omega) _ h2]
        exact hden
      · rw [getBlock_L0 _ (by show 2 * k ≤ (b' ++ t.sym.take (t.sym.length - k)).length; simp; omega)]
        show Ctx _ _ _ ((b' ++ t.sym.take (t.sym.length - k)).take k) _
        rw [List.take_left' h2]
        exact h4
      · rw [getBlock_R0 _ (by show 2 * k ≤ (b' ++ t.sym.take (t.sym.length - k)).length; simp; omega)]
        show Ctx _ _ _ ((b' ++ t.sym.take (t.sym.length - k)).drop
          ((b' ++ t.sym.take (t.sym.length - k)).length - k)) _
        have e : (b' ++ t.sym.take (t.sym.length - k)).drop ((b' ++ t.sym.take (t.sym.length - k)).length - k) =
            (t.sym.drop (t.sym.length - 2 * k)).take k := by
          rw [List.drop_append, List.drop_of_length_le (by simp; omega), List.nil_append, List.drop_take]
          congr 1
          · simp; omega
          · congr 1; simp; omega
        rw [e]
        exact ctx_push (orient_length .R) hr he
          (by show (t.sym.drop (t.sym.length - k)).length = k; simp; omega) hb
  · exact Or.inl (L.inf (simple_noGiveUp T) (simple_inf T) hc).1

theorem closed_sound {T : Table} {k w : Nat} (hk : 0 < k) (hw : 2 * k ≤ w) {g : CGS Nat (Option Nat)}
    (H : Closed T k w g) (h0 : ∃ t, Py.dget g.trans (Cfg.new k (some 0) .R (List.replicate w 0)) = some t)
    (hL : List.replicate k 0 ∈ g.dsts .L (List.replicate k 0))
    (hR : List.replicate k 0 ∈ g.dsts .R (List.replicate k 0)) : NeverHalts T Spec.init := by
  have live : ∀ c cfg, Cov k w g c cfg → cfg.state ≠ none := by
    intro c cfg h
    obtain ⟨l, r, ⟨b, h1, h2, h3, h4⟩, -⟩ := h.mean
    exact h3
  refine (recurs_never (P := fun cfg => NeverHalts T cfg ∨ ∃ c, Cov k w g c cfg) (fun _ => True) ?_ ?_
    Spec.init (Or.inr ⟨_, h0, by simp [Cfg.new], rfl, fun _ => 0, fun _ => 0, ?_, ?_, ?_⟩)).1
  · rintro cfg (h | ⟨c, h⟩)
    · exact h 0
    · exact live c cfg h
  · rintro cfg (h | ⟨c, h⟩)
    · exact ⟨1, by omega, Or.inl (h.run 1), fun _ _ _ _ => trivial⟩
    · rcases cov_step hk hw H h with h' | ⟨m, c', hm, hc'⟩
      · exact ⟨1, by omega, Or.inl (h'.run 1), fun _ _ _ _ => trivial⟩
      · exact ⟨m, hm, Or.inr ⟨c', hc'⟩, fun _ _ _ _ => trivial⟩
  · have hz : ∀ n (l : List Nat), (∀ x ∈ l, x = 0) → pre l (fun _ => 0) n = 0 := by
      intro n l hl
      by_cases hn : n < l.length
      · rw [pre_lt _ _ hn]; exact hl _ (List.getElem_mem _)
      · rw [show n = l.length + (n - l.length) by omega, pre_ge]
    refine ⟨0, ⟨fun i => ?_, fun i => ?_⟩, rfl, by simp [Spec.init], rfl⟩
    · refine hz _ _ (fun x hx => ?_)
      rw [List.mem_reverse] at hx
      exact List.eq_of_mem_replicate (List.mem_of_mem_take hx)
    · refine hz _ _ (fun x hx => ?_)
      exact List.eq_of_mem_replicate (List.mem_of_mem_drop hx)
  · rw [getBlock_L0 _ (by simpa [Cfg.new] using hw)]
    have e : (Cfg.new k (some 0) Dir.R (List.replicate w 0)).window.take k = List.replicate k 0 := by
      simp [Cfg.new]; omega
    rw [e]
    refine ⟨fun _ => List.replicate k 0, rfl, fun i => ⟨hL, by simp⟩, fun i j hj => ?_⟩
    simp [orient, hj]
  · rw [getBlock_R0 _ (by simpa [Cfg.new] using hw)]
    have e : (Cfg.new k (some 0) Dir.R (List.replicate w 0)).window.drop
        ((Cfg.new k (some 0) Dir.R (List.replicate w 0)).window.length - k) = List.replicate k 0 := by
      simp [Cfg.new]; omega
    rw [e]
    refine ⟨fun _ => List.replicate k 0, rfl, fun i => ⟨hR, by simp⟩, fun i j hj => ?_⟩
    simp [orient, hj]

/-! ## The operations -/

section ops
variable {σ S : Type} [DecidableEq σ] [DecidableEq S]

theorem dsts_addEdge (g : CGS σ S) (d : Dir) (src dst : List σ) (d' : Dir) (src' dst' : List σ) :
    dst' ∈ (g.addEdge d src dst).1.dsts d' src' ↔
      dst' ∈ g.dsts d' src' ∨ (d' = d ∧ src' = src ∧ dst' = dst) := by
  unfold CGS.addEdge
  split
  · next h =>
    have key : (({ (g.setCont d (Py.dset (g.cont d) src (g.dsts d src ++ [dst]))) with
        edges := (g.setCont d (Py.dset (g.cont d) src (g.dsts d src ++ [dst]))).edges + 1 } : CGS σ S)).dsts d' src' =
        if d' = d ∧ src' = src then g.dsts d src ++ [dst] else g.dsts d' src' := by
      by_cases hd : d' = d
      · subst hd
        unfold CGS.dsts
        have : ({ (g.setCont d' (Py.dset (g.cont d') src ((Py.dget (g.cont d') src).getD [] ++ [dst]))) with
            edges := (g.setCont d' (Py.dset (g.cont d') src ((Py.dget (g.cont d') src).getD [] ++ [dst]))).edges + 1 } : CGS σ S).cont d'
            = Py.dset (g.cont d') src ((Py.dget (g.cont d') src).getD [] ++ [dst]) := by
          cases d' <;> rfl
        rw [this, Py.dget_dset]
        by_cases hs : src' = src
        · subst hs; simp
        · simp [hs]
      · rw [if_neg (fun hh => hd hh.1)]
        unfold CGS.dsts
        congr 2
        cases d <;> cases d' <;> first | rfl | exact absurd rfl hd
    show dst' ∈ CGS.dsts _ d' src' ↔ _
    rw [key]
    split
    · next hh =>
      obtain ⟨rfl, rfl⟩ := hh
      simp
    · next hh =>
      constructor
      · exact Or.inl
      · rintro (h1 | ⟨h1, h2, -⟩)
        · exact h1
        · exact absurd ⟨h1, h2⟩ hh
  · next h =>
    constructor
    · exact Or.inl
    · rintro (h1 | ⟨rfl, rfl, rfl⟩)
      · exact h1
      · exact not_not.1 h

/-- everything but the edges -/
structure Same (g g' : CGS σ S) : Prop where
  todo : g'.todo = g.todo
  trans : g'.trans = g.trans
  steps : g'.steps = g.steps
  iters : g'.iters = g.iters

theorem addEdge_same (g : CGS σ S) (d : Dir) (src dst : List σ) : Same g (g.addEdge d src dst).1 := by
  unfold CGS.addEdge
  split
  · cases d <;> exact ⟨rfl, rfl, rfl, rfl⟩
  · exact ⟨rfl, rfl, rfl, rfl⟩

theorem addEdge_false {g : CGS σ S} {d : Dir} {src dst : List σ} (h : (g.addEdge d src dst).2 = false) :
    (g.addEdge d src dst).1 = g ∧ dst ∈ g.dsts d src := by
  unfold CGS.addEdge at h ⊢
  split at h
  · cases h
  · next h' => rw [if_neg h']; exact ⟨rfl, not_not.1 h'⟩

theorem addEdges_cons (g : CGS σ S) (d : Dir) (src dst : List σ) (dsts : List (List σ)) :
    g.addEdges d src (dst :: dsts) =
      (((g.addEdge d src dst).1.addEdges d src dsts).1,
        (g.addEdge d src dst).2 || ((g.addEdge d src dst).1.addEdges d src dsts).2) := by
  have key : ∀ (l : List (List σ)) (g : CGS σ S) (b : Bool), l.foldl (fun (p : CGS σ S × Bool) dst =>
      ((p.1.addEdge d src dst).1, p.2 || (p.1.addEdge d src dst).2)) (g, b) =
      ((g.addEdges d src l).1, b || (g.addEdges d src l).2) := by
    intro l
    induction l with
    | nil => intro g b; simp [CGS.addEdges]
    | cons x l ih =>
      intro g b
      unfold CGS.addEdges
      rw [List.foldl_cons, List.foldl_cons, ih, ih]
      simp [Bool.or_assoc]
  unfold CGS.addEdges
  rw [List.foldl_cons]
  simp only [Bool.false_or]
  exact key _ _ _

theorem addEdges_spec (l : List (List σ)) (g : CGS σ S) (d : Dir) (src : List σ) :
    (∀ d' src' dst', dst' ∈ (g.addEdges d src l).1.dsts d' src' ↔
      dst' ∈ g.dsts d' src' ∨ (d' = d ∧ src' = src ∧ dst' ∈ l)) ∧
    Same g (g.addEdges d src l).1 ∧
    ((g.addEdges d src l).2 = false → (g.addEdges d src l).1 = g ∧ ∀ dst ∈ l, dst ∈ g.dsts d src) := by
  induction l generalizing g with
  | nil => exact ⟨fun _ _ _ => by simp [CGS.addEdges], ⟨rfl, rfl, rfl, rfl⟩, fun _ => ⟨rfl, by simp⟩⟩
  | cons x l ih =>
    rw [addEdges_cons]
    obtain ⟨h1, h2, h3⟩ := ih (g.addEdge d src x).1
    have hs := addEdge_same g d src x
    refine ⟨fun d' src' dst' => ?_, ⟨h2.todo.trans hs.todo, h2.trans.trans hs.trans, h2.steps.trans hs.steps,
      h2.iters.trans hs.iters⟩, fun h => ?_⟩
    · rw [h1, dsts_addEdge]
      simp only [List.mem_cons]
      tauto
    · simp only [Bool.or_eq_false_iff] at h
      obtain ⟨e1, e2⟩ := addEdge_false h.1
      rw [e1] at h h3 ⊢
      obtain ⟨e3, e4⟩ := h3 h.2
      exact ⟨e3, fun dst hd => (List.mem_cons.1 hd).elim (fun h => h ▸ e2) (e4 dst)⟩

theorem addFronts_cons (k : Nat) (g : CGS σ S) (c : Cfg σ S) (f : List σ) (fs : List (List σ)) :
    g.addFronts k c (f :: fs) =
      (((g.addConfig (c.shiftFront k f)).1.addFronts k c fs).1,
        (g.addConfig (c.shiftFront k f)).2 || ((g.addConfig (c.shiftFront k f)).1.addFronts k c fs).2) := by
  have key : ∀ (l : List (List σ)) (g : CGS σ S) (b : Bool), l.foldl (fun (p : CGS σ S × Bool) f =>
      ((p.1.addConfig (c.shiftFront k f)).1, p.2 || (p.1.addConfig (c.shiftFront k f)).2)) (g, b) =
      ((g.addFronts k c l).1, b || (g.addFronts k c l).2) := by
    intro l
    induction l with
    | nil => intro g b; simp [CGS.addFronts]
    | cons x l ih =>
      intro g b
      unfold CGS.addFronts
      rw [List.foldl_cons, List.foldl_cons, ih, ih]
      simp [Bool.or_assoc]
  unfold CGS.addFronts
  rw [List.foldl_cons]
  simp only [Bool.false_or]
  exact key _ _ _

theorem addConfig_spec (g : CGS σ S) (c : Cfg σ S) :
    (∀ x, x ∈ (g.addConfig c).1.todo → x = c ∨ x ∈ g.todo) ∧ (∀ x ∈ g.todo, x ∈ (g.addConfig c).1.todo) ∧
    (∀ d src, (g.addConfig c).1.dsts d src = g.dsts d src) ∧
    (g.addConfig c).1.trans = g.trans ∧ (g.addConfig c).1.steps = g.steps ∧ (g.addConfig c).1.iters = g.iters ∧
    ((g.addConfig c).2 = false → (g.addConfig c).1 = g ∧ ((∃ t, Py.dget g.trans c = some t) ∨ c ∈ g.todo)) := by
  unfold CGS.addConfig
  split
  · refine ⟨fun x hx => ?_, fun x hx => List.mem_append_left _ hx, fun d src => ?_, rfl, rfl, rfl, fun h => by cases h⟩
    · rcases List.mem_append.1 hx with h | h
      · exact Or.inr h
      · exact Or.inl (List.mem_singleton.1 h)
    · cases d <;> rfl
  · next h =>
    refine ⟨fun x hx => Or.inr hx, fun x hx => hx, fun d src => rfl, rfl, rfl, rfl, fun _ => ⟨rfl, ?_⟩⟩
    by_contra hh
    rw [not_or] at hh
    refine h ⟨?_, hh.2⟩
    cases he : Py.dget g.trans c with
    | none => rfl
    | some t => exact absurd ⟨t, he⟩ hh.1

theorem addFronts_spec (k : Nat) (l : List (List σ)) (g : CGS σ S) (c : Cfg σ S) :
    (∀ x, x ∈ (g.addFronts k c l).1.todo → (∃ f ∈ l, x = c.shiftFront k f) ∨ x ∈ g.todo) ∧
    (∀ x ∈ g.todo, x ∈ (g.addFronts k c l).1.todo) ∧
    (∀ d src, (g.addFronts k c l).1.dsts d src = g.dsts d src) ∧
    (g.addFronts k c l).1.trans = g.trans ∧ (g.addFronts k c l).1.steps = g.steps ∧
    (g.addFronts k c l).1.iters = g.iters ∧
    ((g.addFronts k c l).2 = false → (g.addFronts k c l).1 = g ∧
      ∀ f ∈ l, (∃ t, Py.dget g.trans (c.shiftFront k f) = some t) ∨ c.shiftFront k f ∈ g.todo) := by
  induction l generalizing g with
  | nil => exact ⟨fun x hx => Or.inr hx, fun x hx => hx, fun _ _ => rfl, rfl, rfl, rfl, fun _ => ⟨rfl, by simp⟩⟩
  | cons f l ih =>
    rw [addFronts_cons]
    obtain ⟨a1, a2, a3, a4, a5, a6, a7⟩ := ih (g.addConfig (c.shiftFront k f)).1
    obtain ⟨b1, b2, b3, b4, b5, b6, b7⟩ := addConfig_spec g (c.shiftFront k f)
    refine ⟨fun x hx => ?_, fun x hx => a2 x (b2 x hx), fun d src => (a3 d src).trans (b3 d src), a4.trans b4,
      a5.trans b5, a6.trans b6, fun h => ?_⟩
    · rcases a1 x hx with ⟨f', hf, rfl⟩ | hx
      · exact Or.inl ⟨f', List.mem_cons_of_mem _ hf, rfl⟩
      · rcases b1 x hx with rfl | hx
        · exact Or.inl ⟨f, List.mem_cons_self, rfl⟩
        · exact Or.inr hx
    · simp only [Bool.or_eq_false_iff] at h
      obtain ⟨e1, e2⟩ := b7 h.1
      rw [e1] at h a7 ⊢
      obtain ⟨e3, e4⟩ := a7 h.2
      exact ⟨e3, fun f' hf => (List.mem_cons.1 hf).elim (fun h => h ▸ e2) (e4 f')⟩

end ops

/-! ## The run -/

structure Good (k w : Nat) (c : Cfg Nat (Option Nat)) : Prop where
  len : c.window.length = w
  pos : c.pos = (Cfg.new k c.st c.dir c.window).pos
  st : c.st ≠ none

theorem Good.range {k w : Nat} (hk : 0 < k) (hw : 2 * k ≤ w) {c : Cfg Nat (Option Nat)} (h : Good k w c) :
    0 ≤ c.pos ∧ c.pos < c.window.length := by
  rw [h.pos]; unfold Cfg.new
  have := h.len
  cases c.dir <;> simp only <;> omega

structure Inv (T : Table) (k w : Nat) (pl : List (Cfg Nat (Option Nat))) (g : CGS Nat (Option Nat)) : Prop where
  todo : ∀ c ∈ g.todo, Good k w c
  pend : ∀ c ∈ pl, Good k w c
  trans : ∀ c t, Py.dget g.trans c = some t → Good k w c ∧
    (∃ m, t = simLimited (simple T) c.st c.window c.pos c.dir m) ∧ (t.cond = .running ∨ t.cond = .infRepeat)
  len : ∀ d src dst, dst ∈ g.dsts d src → dst.length = k
  blank : ∀ d, List.replicate k 0 ∈ g.dsts d (List.replicate k 0)
  start : (∃ t, Py.dget g.trans (Cfg.new k (some 0) .R (List.replicate w 0)) = some t) ∨
    Cfg.new k (some 0) .R (List.replicate w 0) ∈ g.todo ∨ Cfg.new k (some 0) .R (List.replicate w 0) ∈ pl

/-- nothing to add for one configuration -/
structure ClosedAt (k : Nat) (g : CGS Nat (Option Nat)) (c : Cfg Nat (Option Nat))
    (t : Trans (List Nat) (Option Nat)) : Prop where
  edge : (postConfig t).getBlock k t.dir.other 0 ∈ g.dsts t.dir.other ((postConfig t).getBlock k t.dir.other 1)
  back : ∀ dst ∈ g.dsts t.dir.other (c.getBlock k t.dir.other 0),
      dst ∈ g.dsts t.dir.other ((postConfig t).getBlock k t.dir.other 0)
  front : ∀ f ∈ g.dsts t.dir (c.getBlock k t.dir 0),
    (∃ t', Py.dget g.trans ((postConfig t).shiftFront k f) = some t') ∨ (postConfig t).shiftFront k f ∈ g.todo

/-- what simulating a good configuration yields -/
theorem sim_facts (T : Table) {k w : Nat} (hk : 0 < k) (hw : 2 * k ≤ w) {c : Cfg Nat (Option Nat)} (h : Good k w c)
    (m : Nat) : let t := simLimited (simple T) c.st c.window c.pos c.dir m
    t.cond ≠ .raised ∧ 0 < t.steps ∧ t.sym.length = w ∧ (t.cond = .running → t.st ≠ none) ∧
      (m = 0 → t.cond = .gaveUp) := by
  intro t
  obtain ⟨h0, h1⟩ := h.range hk hw
  obtain ⟨q, hq⟩ := Option.ne_none_iff_exists'.1 h.st
  have A := abs_spec T (fun _ => 0) 0 c.window q c.pos c.dir m h0 h1
  rw [← hq] at A
  refine ⟨A.safe, A.pos, A.slen.trans h.len, fun hr hn => ?_, ?_⟩
  · have hr' : (simLimited (simple T) c.st c.window c.pos c.dir m).cond = .running := hr
    have := A.halted.1 ⟨hn, by rw [hr']; simp⟩
    rw [hr'] at this
    simp at this
  · rintro rfl
    have hs := A.safe
    have key : ∀ s : LimLoop Nat (Option Nat), s.old = none → s.loops = 0 →
        (limLoop (simple T) 0 1 s).cond = .raised ∨ (limLoop (simple T) 0 1 s).cond = .gaveUp := by
      intro s ho hl
      unfold limLoop
      unfold limIter
      cases Py.get s.tape s.pos with
      | none => exact Or.inl rfl
      | some a =>
        simp only
        split
        · next hh =>
          split at hh
          · cases hh
          · split at hh
            · cases hh
            · rw [if_neg (by rw [ho]; simp), if_pos (by rw [hl]; decide)] at hh
              cases hh
        · next t' hh =>
          split at hh
          · cases hh; exact Or.inl rfl
          · split at hh
            · cases hh; exact Or.inl rfl
            · rw [if_neg (by rw [ho]; simp), if_pos (by rw [hl]; decide)] at hh
              cases hh; exact Or.inr rfl
    exact (key _ rfl rfl).resolve_left hs

theorem block_len {k w : Nat} (hw : 2 * k ≤ w) (c : Cfg Nat (Option Nat)) (h : c.window.length = w) (d : Dir) :
    (c.getBlock k d 0).length = k := by
  cases d
  · rw [getBlock_L0 _ (by omega)]; simp; omega
  · rw [getBlock_R0 _ (by omega)]; simp; omega

theorem shift_good {k w : Nat} (hw : 2 * k ≤ w) (c : Cfg Nat (Option Nat)) (h : c.window.length = w)
    (hs : c.st ≠ none) {f : List Nat} (hf : f.length = k) : Good k w (c.shiftFront k f) := by
  cases hd : c.dir
  · rw [shift_L _ (by omega) hd]
    exact ⟨by simp [Cfg.new]; omega, rfl, hs⟩
  · rw [shift_R _ (by omega) hd]
    exact ⟨by simp [Cfg.new]; omega, rfl, hs⟩

theorem updateSet_spec {T : Table} {k w : Nat} (hk : 0 < k) (hw : 2 * k ≤ w)
    {ordB : List (List Nat) → List (List Nat)} (hB : ∀ l x, x ∈ ordB l ↔ x ∈ l)
    {pend : List (Cfg Nat (Option Nat))} {g : CGS Nat (Option Nat)} (I : Inv T k w pend g)
    {old : Cfg Nat (Option Nat)} {t : Trans (List Nat) (Option Nat)} (ht : Py.dget g.trans old = some t) :
    ∃ g' m, g.updateSet k ordB old = some (g', m) ∧ Inv T k w pend g' ∧ g'.trans = g.trans ∧
      g'.steps = g.steps ∧ g'.iters = g.iters ∧
      (m = false → g' = g ∧ (t.cond = .running → ClosedAt k g old t)) := by
  unfold CGS.updateSet
  rw [ht]
  simp only
  by_cases hc : t.cond = .running
  · rw [if_pos hc]
    obtain ⟨hgood, ⟨mm, hmm⟩, -⟩ := I.trans old t ht
    have SF := sim_facts T hk hw hgood mm
    rw [← hmm] at SF
    obtain ⟨-, -, hslen, hst, -⟩ := SF
    generalize hfu : (postConfig t).getBlock k t.dir.other 0 = fu
    generalize hse : (postConfig t).getBlock k t.dir.other 1 = se
    have hful : fu.length = k := by rw [← hfu]; exact block_len hw _ hslen _
    generalize hg1 : g.addEdge t.dir.other se fu = p1
    obtain ⟨g1, m1⟩ := p1
    have E1 : ∀ d src dst, dst ∈ g1.dsts d src ↔ dst ∈ g.dsts d src ∨ (d = t.dir.other ∧ src = se ∧ dst = fu) := by
      intro d src dst
      have := dsts_addEdge g t.dir.other se fu d src dst
      rw [hg1] at this; exact this
    have S1 : Same g g1 := by have := addEdge_same g t.dir.other se fu; rw [hg1] at this; exact this
    have F1 : m1 = false → g1 = g ∧ fu ∈ g.dsts t.dir.other se := by
      intro h
      have := addEdge_false (g := g) (d := t.dir.other) (src := se) (dst := fu) (by rw [hg1]; exact h)
      rw [hg1] at this; exact this
    simp only
    generalize hg2 : g1.addEdges t.dir.other fu (ordB (g1.dsts t.dir.other (old.getBlock k t.dir.other 0))) = p2
    obtain ⟨g2, m2⟩ := p2
    have A2 := addEdges_spec (ordB (g1.dsts t.dir.other (old.getBlock k t.dir.other 0))) g1 t.dir.other fu
    rw [hg2] at A2
    obtain ⟨E2, S2, F2⟩ := A2
    simp only at E2 S2 F2
    simp only
    generalize hg3 : g2.addFronts k (postConfig t) (ordB (g2.dsts t.dir (old.getBlock k t.dir 0))) = p3
    obtain ⟨g3, m3⟩ := p3
    have A3 := addFronts_spec k (ordB (g2.dsts t.dir (old.getBlock k t.dir 0))) g2 (postConfig t)
    rw [hg3] at A3
    obtain ⟨T3, T3', D3, Tr3, St3, It3, F3⟩ := A3
    simp only at T3 T3' D3 Tr3 St3 It3 F3
    have hlen2 : ∀ d src dst, dst ∈ g2.dsts d src → dst.length = k := by
      intro d src dst hd
      rcases (E2 d src dst).1 hd with h | ⟨-, -, h⟩
      · rcases (E1 d src dst).1 h with h | ⟨-, -, rfl⟩
        · exact I.len d src dst h
        · exact hful
      · rw [hB] at h
        rcases (E1 _ _ dst).1 h with h | ⟨-, -, rfl⟩
        · exact I.len _ _ dst h
        · exact hful
    refine ⟨g3, m1 || m2 || m3, rfl, ⟨?_, I.pend, ?_, ?_, ?_, ?_⟩, ?_, ?_, ?_, ?_⟩
    · intro c hcm
      rcases T3 c hcm with ⟨f, hf, rfl⟩ | hcm
      · rw [hB] at hf
        exact shift_good hw _ hslen (hst hc) (hlen2 _ _ _ hf)
      · rw [S2.todo, S1.todo] at hcm
        exact I.todo c hcm
    · intro c t' hct
      rw [Tr3, S2.trans, S1.trans] at hct
      exact I.trans c t' hct
    · intro d src dst hd
      rw [D3] at hd
      exact hlen2 d src dst hd
    · intro d
      rw [D3]
      exact (E2 _ _ _).2 (Or.inl ((E1 _ _ _).2 (Or.inl (I.blank d))))
    · rw [Tr3, S2.trans, S1.trans]
      refine I.start.imp id (Or.imp (fun h => T3' _ ?_) id)
      rw [S2.todo, S1.todo]; exact h
    · rw [Tr3, S2.trans, S1.trans]
    · rw [St3, S2.steps, S1.steps]
    · rw [It3, S2.iters, S1.iters]
    · intro hm
      simp only [Bool.or_eq_false_iff] at hm
      obtain ⟨⟨hm1, hm2⟩, hm3⟩ := hm
      obtain ⟨e1, f1⟩ := F1 hm1
      obtain ⟨e2, f2⟩ := F2 hm2
      obtain ⟨e3, f3⟩ := F3 hm3
      subst e1
      subst e2
      subst e3
      refine ⟨rfl, fun _ => ⟨?_, ?_, ?_⟩⟩
      · rw [hfu, hse]; exact f1
      · intro dst hd
        rw [hfu]
        exact f2 dst ((hB _ _).2 hd)
      · intro f hf
        exact f3 f ((hB _ _).2 hf)
  · rw [if_neg hc]
    exact ⟨g, false, rfl, I, rfl, rfl, rfl, fun _ => ⟨rfl, fun h => absurd h hc⟩⟩

theorem simAll_spec {T : Table} {k w : Nat} (hk : 0 < k) (hw : 2 * k ≤ w) (lim : Lim)
    {ordB : List (List Nat) → List (List Nat)} (hB : ∀ l x, x ∈ ordB l ↔ x ∈ l)
    (cs : List (Cfg Nat (Option Nat))) (g : CGS Nat (Option Nat)) (I : Inv T k w cs g) :
    match CGS.simAll (simple T) k lim ordB cs g with
    | .go g' => Inv T k w [] g' ∧ g'.iters = g.iters ∧ g.steps ≤ g'.steps ∧
        (cs ≠ [] → g.steps < lim.steps ∧ g.steps < g'.steps)
    | .fail _ => True
    | .raise => False := by
  induction cs generalizing g with
  | nil => exact ⟨I, rfl, le_refl _, fun h => absurd rfl h⟩
  | cons c cs ih =>
    have hgood := I.pend c (by simp)
    unfold CGS.simAll
    have SF := sim_facts T hk hw hgood (lim.steps - g.steps)
    generalize ht : simLimited (simple T) c.st c.window c.pos c.dir (lim.steps - g.steps) = t at SF
    obtain ⟨s1, s2, s3, s4, s5⟩ := SF
    have hsim : g.simConfig (simple T) lim c = ({ g with
      infLoop := g.infLoop || decide (t.cond = .infRepeat)
      trans := Py.dset g.trans c t
      steps := g.steps + t.steps }, t.cond) := by
      unfold CGS.simConfig; rw [ht]
    rw [hsim]
    simp only
    rw [if_neg s1]
    -- the invariant after a simulation that did not fail
    have I' : (t.cond = .running ∨ t.cond = .infRepeat) → Inv T k w cs { g with
        infLoop := g.infLoop || decide (t.cond = .infRepeat)
        trans := Py.dset g.trans c t
        steps := g.steps + t.steps } := by
      intro hor
      refine ⟨I.todo, fun c' hc' => I.pend c' (List.mem_cons_of_mem _ hc'), ?_, I.len, I.blank, ?_⟩
      · intro c' t' h
        simp only at h
        rw [Py.dget_dset] at h
        split at h
        · next hcc =>
          cases h
          subst hcc
          exact ⟨hgood, ⟨_, ht.symm⟩, hor⟩
        · exact I.trans c' t' h
      · simp only
        rw [Py.dget_dset]
        rcases I.start with ⟨t', h⟩ | h | h
        · left
          split
          · exact ⟨t, rfl⟩
          · exact ⟨t', h⟩
        · exact Or.inr (Or.inl h)
        · rcases List.mem_cons.1 h with h | h
          · left; rw [if_pos h]; exact ⟨t, rfl⟩
          · exact Or.inr (Or.inr h)
    have hbud : t.cond ≠ .gaveUp → g.steps < lim.steps := by
      intro hne
      by_contra hlt
      exact hne (s5 (by omega))
    by_cases hr : t.cond = .running
    · rw [if_pos hr]
      obtain ⟨g', m, u1, u2, u3, u4, u5, -⟩ := updateSet_spec hk hw hB (I' (Or.inl hr)) (old := c) (t := t)
        (by simp only; rw [Py.dget_dset, if_pos rfl])
      rw [u1]
      simp only
      have := ih g' u2
      revert this
      cases CGS.simAll (simple T) k lim ordB cs g' with
      | raise => exact id
      | fail _ => exact id
      | go g'' =>
        rintro ⟨v1, v2, v3, -⟩
        simp only at u4 u5
        exact ⟨v1, v2.trans u5, by omega, fun _ => ⟨hbud (by rw [hr]; simp), by omega⟩⟩
    · rw [if_neg hr]
      by_cases hi : t.cond = .infRepeat
      · rw [if_neg (by simpa using hi)]
        have := ih _ (I' (Or.inr hi))
        revert this
        generalize CGS.simAll (simple T) k lim ordB cs _ = r
        cases r with
        | raise => exact id
        | fail _ => exact id
        | go g'' =>
          rintro ⟨v1, v2, v3, -⟩
          simp only at v2 v3
          exact ⟨v1, v2, by omega, fun _ => ⟨hbud (by rw [hi]; simp), by omega⟩⟩
      · rw [if_pos hi]
        trivial

theorem simTodo_spec {T : Table} {k w : Nat} (hk : 0 < k) (hw : 2 * k ≤ w) (lim : Lim)
    {ordC : List (Cfg Nat (Option Nat)) → List (Cfg Nat (Option Nat))} (hC : ∀ l x, x ∈ ordC l ↔ x ∈ l)
    {ordB : List (List Nat) → List (List Nat)} (hB : ∀ l x, x ∈ ordB l ↔ x ∈ l)
    (fuel : Nat) (g : CGS Nat (Option Nat)) (I : Inv T k w [] g) (hf : lim.steps - g.steps + 2 ≤ fuel) :
    match CGS.simTodo (simple T) k lim ordC ordB fuel g with
    | .go g' => Inv T k w [] g' ∧ g'.iters = g.iters ∧ g'.todo = []
    | .fail _ => True
    | .raise => False := by
  induction fuel generalizing g with
  | zero => omega
  | succ fuel ih =>
    unfold CGS.simTodo
    by_cases ht : g.todo = []
    · rw [if_pos ht]
      exact ⟨I, rfl, ht⟩
    · rw [if_neg ht]
      have I' : Inv T k w (ordC g.todo) { g with todo := [] } :=
        ⟨(fun c hc => by cases hc), fun c hc => I.todo c ((hC _ _).1 hc), I.trans, I.len, I.blank, by
          rcases I.start with h | h | h
          · exact Or.inl h
          · exact Or.inr (Or.inr ((hC _ _).2 h))
          · cases h⟩
      have hne : ordC g.todo ≠ [] := by
        obtain ⟨x, hx⟩ := List.exists_mem_of_ne_nil _ ht
        exact List.ne_nil_of_mem ((hC _ _).2 hx)
      have := simAll_spec hk hw lim hB _ _ I'
      revert this
      generalize CGS.simAll (simple T) k lim ordB _ _ = r
      cases r with
      | raise => exact id
      | fail _ => exact id
      | go g' =>
        rintro ⟨v1, v2, v3, v4⟩
        simp only at v2 v3 v4
        obtain ⟨v5, v6⟩ := v4 hne
        simp only
        have := ih g' v1 (by omega)
        revert this
        generalize CGS.simTodo (simple T) k lim ordC ordB fuel g' = r
        cases r with
        | raise => exact id
        | fail _ => exact id
        | go g'' =>
          rintro ⟨w1, w2, w3⟩
          exact ⟨w1, w2.trans v2, w3⟩

theorem recheck_spec {T : Table} {k w : Nat} (hk : 0 < k) (hw : 2 * k ≤ w)
    {ordB : List (List Nat) → List (List Nat)} (hB : ∀ l x, x ∈ ordB l ↔ x ∈ l)
    (cs : List (Cfg Nat (Option Nat))) (g : CGS Nat (Option Nat)) (m : Bool) (I : Inv T k w [] g)
    (hcs : ∀ c ∈ cs, ∃ t, Py.dget g.trans c = some t) :
    ∃ g' m', CGS.recheck k ordB cs g m = some (g', m') ∧ Inv T k w [] g' ∧ g'.iters = g.iters ∧
      (m' = false → m = false ∧ g' = g ∧ ∀ c ∈ cs, ∀ t, Py.dget g.trans c = some t → t.cond = .running →
        ClosedAt k g c t) := by
  induction cs generalizing g m with
  | nil => exact ⟨g, m, rfl, I, rfl, fun h => ⟨h, rfl, fun c hc => by cases hc⟩⟩
  | cons c cs ih =>
    obtain ⟨t, ht⟩ := hcs c (by simp)
    obtain ⟨g1, m1, u1, u2, u3, u4, u5, u6⟩ := updateSet_spec hk hw hB I ht
    unfold CGS.recheck
    rw [u1]
    simp only
    obtain ⟨g2, m2, v1, v2, v3, v4⟩ := ih g1 (m || m1) u2 (fun c' hc' => by
      rw [u3]; exact hcs c' (List.mem_cons_of_mem _ hc'))
    refine ⟨g2, m2, v1, v2, v3.trans u5, fun h => ?_⟩
    obtain ⟨w1, w2, w3⟩ := v4 h
    rw [Bool.or_eq_false_iff] at w1
    obtain ⟨x1, x2⟩ := u6 w1.2
    subst x1
    refine ⟨w1.1, w2, fun c' hc' t' ht' hr => ?_⟩
    rcases List.mem_cons.1 hc' with rfl | hc'
    · rw [ht] at ht'
      cases ht'
      exact x2 hr
    · exact w3 c' hc' t' ht' hr

theorem runLoop_spec {T : Table} {k w : Nat} (hk : 0 < k) (hw : 2 * k ≤ w) (lim : Lim)
    {ordC : List (Cfg Nat (Option Nat)) → List (Cfg Nat (Option Nat))} (hC : ∀ l x, x ∈ ordC l ↔ x ∈ l)
    {ordB : List (List Nat) → List (List Nat)} (hB : ∀ l x, x ∈ ordB l ↔ x ∈ l)
    (fuel : Nat) (g : CGS Nat (Option Nat)) (I : Inv T k w [] g) (hf : lim.iters - g.iters + 1 ≤ fuel) :
    ∃ g' b, CGS.runLoop (simple T) k lim ordC ordB fuel g = some (g', b) ∧ (b = true → NeverHalts T Spec.init) := by
  induction fuel generalizing g with
  | zero => omega
  | succ fuel ih =>
    unfold CGS.runLoop
    simp only
    have I0 : Inv T k w [] { g with iters := g.iters + 1 } := ⟨I.todo, I.pend, I.trans, I.len, I.blank, I.start⟩
    have := simTodo_spec hk hw lim hC hB (lim.steps + 2) _ I0 (by simp only; omega)
    revert this
    generalize CGS.simTodo (simple T) k lim ordC ordB (lim.steps + 2) _ = r
    cases r with
    | raise => exact fun h => h.elim
    | fail g' => exact fun _ => ⟨g', false, rfl, fun h => by cases h⟩
    | go g1 =>
      rintro ⟨v1, v2, v3⟩
      simp only at v2
      obtain ⟨g2, m, u1, u2, u3, u4⟩ := recheck_spec hk hw hB (ordC (g1.trans.map (·.1))) g1 false v1 (by
        intro c hc
        rw [hC] at hc
        rw [List.mem_map] at hc
        obtain ⟨⟨c', t⟩, hmem, rfl⟩ := hc
        have : ∃ t', Py.dget g1.trans c' = some t' := by
          unfold Py.dget
          cases hfind : g1.trans.find? (fun e => e.1 == c') with
          | some e => exact ⟨e.2, rfl⟩
          | none =>
            rw [List.find?_eq_none] at hfind
            have := hfind _ hmem
            simp at this
        exact this)
      simp only
      rw [u1]
      simp only
      cases m with
      | false =>
        refine ⟨g2, true, by simp, fun _ => ?_⟩
        obtain ⟨-, e, hcl⟩ := u4 rfl
        subst e
        have hkeys : ∀ c t, Py.dget g2.trans c = some t → c ∈ ordC (g2.trans.map (·.1)) := by
          intro c t h
          rw [hC, List.mem_map]
          unfold Py.dget at h
          rw [Option.map_eq_some_iff] at h
          obtain ⟨e, he, -⟩ := h
          have hk := List.find?_some he
          exact ⟨e, List.mem_of_find?_eq_some he, by simpa using hk⟩
        refine closed_sound hk hw (g := g2) ⟨fun c t h => ⟨(v1.trans c t h).2.1, (v1.trans c t h).2.2⟩,
          fun c t h hr => (hcl c (hkeys c t h) t h hr).edge, fun c t h hr => (hcl c (hkeys c t h) t h hr).back,
          fun c t h hr f hff => ?_⟩ ?_ (v1.blank .L) (v1.blank .R)
        · rcases (hcl c (hkeys c t h) t h hr).front f hff with h' | h'
          · exact h'
          · rw [v3] at h'; cases h'
        · rcases v1.start with h | h | h
          · exact h
          · rw [v3] at h; cases h
          · cases h
      | true =>
        simp only [not_true_eq_false, if_false]
        split
        · exact ⟨g2, false, rfl, fun h => by cases h⟩
        · next hlim =>
          rw [not_or] at hlim
          exact ih g2 u2 (by omega)

theorem init_inv (T : Table) {k w : Nat} (hk : 0 < k) (hw : 2 * k ≤ w) : Inv T k w [] (CGS.init (simple T) k w) := by
  have hd : ∀ d src, (CGS.init (simple T) k w).dsts d src =
      if src = List.replicate k 0 then [List.replicate k 0] else [] := by
    intro d src
    unfold CGS.dsts
    have : (CGS.init (simple T) k w).cont d = Py.dset [] (List.replicate k 0) [List.replicate k 0] := by
      cases d <;> rfl
    rw [this, Py.dget_dset]
    split <;> rfl
  refine ⟨?_, (fun c hc => by cases hc), (fun c t h => by cases h), ?_, ?_, Or.inr (Or.inl ?_)⟩
  · intro c hc
    have : c = Cfg.new k (some 0) .R (List.replicate w 0) := List.mem_singleton.1 hc
    subst this
    exact ⟨by simp [Cfg.new], rfl, by simp [Cfg.new]⟩
  · intro d src dst h
    rw [hd] at h
    split at h
    · rw [List.mem_singleton.1 h]; simp
    · cases h
  · intro d
    rw [hd, if_pos rfl]
    exact List.mem_cons_self
  · exact List.mem_cons_self

theorem run_spec (T : Table) {k w : Nat} (hk : 0 < k) (hw : 2 * k ≤ w) (lim : Lim)
    {ordC : List (Cfg Nat (Option Nat)) → List (Cfg Nat (Option Nat))} (hC : ∀ l x, x ∈ ordC l ↔ x ∈ l)
    {ordB : List (List Nat) → List (List Nat)} (hB : ∀ l x, x ∈ ordB l ↔ x ∈ l) :
    ∃ g b, CGS.run (simple T) k w lim ordC ordB = some (g, b) ∧ (b = true → NeverHalts T Spec.init) :=
  runLoop_spec hk hw lim hC hB _ _ (init_inv T hk hw) (by simp [CGS.init])

end Model.CPS
