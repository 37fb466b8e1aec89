import Verif.Model.Cache
import Verif.Lemmas.SimAbs
import Verif.Lemmas.ChainTape

/-!
# C03-C09: segment simulation, macro machines, the transition cache and the run-length tape
-/

namespace Props
open Spec Model

/-! ## C03, C04: `sim_limited` over a plain machine -/

/-- The configuration in which the head is at index `pos` of the segment `seg`, which starts at cell `b`
of `tape`. -/
def onSegment (tape : Int → Nat) (b : Int) (seg : List Nat) (q : Nat) (pos : Int) : Config :=
  { state := some q, pos := b + pos, tape := patch tape b seg }

/-- **C03.** Simulating a segment `seg` of any tape, wherever it lies (`b`) and whatever surrounds it
(`tape`), never raises, does at most `maxLoops + 1` steps, and the result is exactly what the machine
does on that tape: after the reported number of steps it is in the reported state with the reported
segment contents and unchanged surroundings; "running" means it is then just outside the segment on the
reported side, for the first time; "halt" or "undefined" means that it halts at exactly that step, the
latter exactly when the executed cell is undefined; "gave up" means that the limit was exceeded.  The
recorded visit times are those of the machine. -/
theorem C03_sim_limited_exact (T : Table) (tape : Int → Nat) (b : Int) (seg : List Nat) (q : Nat)
    (pos : Int) (d : Dir) (maxLoops : Nat) (h0 : 0 ≤ pos) (h1 : pos < seg.length) :
    let t := simLimited (simple T) (some q) seg pos d maxLoops
    let cfg := onSegment tape b seg q pos
    t.cond ≠ .raised ∧ 0 < t.steps ∧ t.steps ≤ maxLoops + 1 ∧
    (run T t.steps cfg).state = t.st ∧
    t.sym.length = seg.length ∧ (run T t.steps cfg).tape = patch tape b t.sym ∧
    (t.cond = .running → t.st ≠ none ∧
      (run T t.steps cfg).pos = (match t.dir with | .R => b + seg.length | .L => b - 1) ∧
      (∀ q' u, Py.dget t.seen q' = some u ↔ LastSeen T cfg t.steps q' u)) ∧
    (t.cond = .halt ∨ t.cond = .undefined → HaltsAt T cfg t.steps ∧
      (∃ a q', t.cell = some (a, q') ∧ (run T (t.steps - 1) cfg).state = some q' ∧
        (run T (t.steps - 1) cfg).scanned = a ∧ (t.cond = .undefined ↔ T q' a = .undef)) ∧
      (∀ q' u, Py.dget t.seen q' = some u ↔ LastSeen T cfg t.steps q' u)) ∧
    (t.cond = .gaveUp → t.steps = maxLoops + 1) := by
  intro t cfg
  have A := abs_spec T tape b seg q pos d maxLoops h0 h1
  have L := simLimited_spec (simple_follows T) (some q) seg pos d maxLoops h0 h1
    (patch_represents tape b seg q pos d h0 h1)
  refine ⟨A.safe, A.pos, A.bound, A.state, A.slen, A.tape, fun h => ⟨?_, A.out h, (L.run h).2.2.2⟩,
    fun h => ⟨(L.halt h).2.1, (L.halt h).2.2.2.2, (L.halt h).2.2.2.1.2⟩, A.gave⟩
  intro hn
  have h' : t.cond = .running := h
  have := A.halted.1 ⟨hn, by show t.cond ≠ .gaveUp; rw [h']; simp⟩
  change t.cond = .halt ∨ t.cond = .undefined at this
  rw [h'] at this
  simp at this

/-- While `sim_limited` reports "running", the machine was inside the segment at all earlier times. -/
theorem C03_first_exit (T : Table) (tape : Int → Nat) (b : Int) (seg : List Nat) (q : Nat)
    (pos : Int) (d : Dir) (maxLoops : Nat) (h0 : 0 ≤ pos) (h1 : pos < seg.length) :
    let t := simLimited (simple T) (some q) seg pos d maxLoops
    ∀ m, m < t.steps → b ≤ (run T m (onSegment tape b seg q pos)).pos ∧
      (run T m (onSegment tape b seg q pos)).pos < b + seg.length :=
  (abs_spec T tape b seg q pos d maxLoops h0 h1).inside

/-- **C04.** An in-place repeat over a plain machine means that it never halts, on any tape containing
the segment anywhere. -/
theorem C04_repeat_in_place_sound (T : Table) (tape : Int → Nat) (b : Int) (seg : List Nat) (q : Nat)
    (pos : Int) (d : Dir) (maxLoops : Nat) (h0 : 0 ≤ pos) (h1 : pos < seg.length)
    (h : (simLimited (simple T) (some q) seg pos d maxLoops).cond = .infRepeat) :
    NeverHalts T (onSegment tape b seg q pos) :=
  ((simLimited_spec (simple_follows T) (some q) seg pos d maxLoops h0 h1
    (patch_represents tape b seg q pos d h0 h1)).inf (simple_noGiveUp T) (simple_inf T) h).1

/-- a table given by a list of rows -/
def tbl (rows : List (List Instr)) : Table := fun q a => ((rows[q]?).bind (·[a]?)).getD .undef

/-- the 2-state busy beaver `1RB1LB_1LA1RZ` -/
def exBB2 : Table := tbl [[.go 1 .R 1, .go 1 .L 1], [.go 1 .L 0, .halt 1 .R]]

/-- bounces between two cells: A0 → 0RB, B0 → 0LA -/
def bouncer : Table := tbl [[.go 0 .R 1], [.go 0 .L 0]]

-- cases meeting the hypotheses: leaving the segment, halting, giving up, and repeating in place
example : let t := simLimited (simple exBB2) (some 0) [0, 0, 0] 1 .R 100
    (t.cond, t.sym, t.st, t.dir, t.steps) = (.running, [1, 1, 1], some 0, .L, 4) := by decide
example : let t := simLimited (simple exBB2) (some 0) [0, 0, 0, 0] 2 .R 100
    (t.cond, t.sym, t.st, t.dir, t.steps, t.cell) = (.halt, [1, 1, 1, 1], none, .R, 6, some (1, 1)) := rfl
example : let t := simLimited (simple exBB2) (some 0) [0, 0, 0, 0] 2 .R 3
    (t.cond, t.steps) = (.gaveUp, 4) := by decide
example : let t := simLimited (simple bouncer) (some 0) [0, 0] 0 .R 1000
    (t.cond, t.steps) = (.infRepeat, 130) := by decide +kernel

/-! ## C06, C07: macro machines -/

/-- **C06.** The block machine, for any block size and offset.  Let `c` be any configuration of blocks
that means (after flattening) the configuration `cfg` of the base machine.  Then the transition never
raises; a running transition leads to the configuration meaning `cfg` after exactly the reported number of
base steps; a halting transition means that the base machine halts at exactly that step, with the tape
that results from the reported block; an infinite repeat means that it never halts. -/
theorem C06_block_machine_exact (T : Table) (k off maxSim : Nat) (hk : 0 < k)
    (c : DC (List Nat) (BSt (Option Nat))) (cfg : Config) (hv : blockValid k c)
    (h : Represents (blockFlat k 0 c) cfg) :
    let t := (block (simple T) k off maxSim).trans c.front c.st c.dir
    let c' := c.move t.sym t.st t.dir
    t.cond ≠ .raised ∧
    (t.cond = .running → 0 < t.steps ∧ blockValid k c' ∧
      Represents (blockFlat k 0 c') (run T t.steps cfg)) ∧
    (t.cond = .halt ∨ t.cond = .undefined → HaltsAt T cfg t.steps ∧ blockValid k c' ∧
      RepresentsTape (blockFlat k 0 c') (run T t.steps cfg).tape) ∧
    (t.cond = .infRepeat → NeverHalts T cfg) := by
  intro t c'
  have F := block_follows (simple_follows T) (simple_shift _) hk off maxSim 0
  have hd : blockDen k 0 Represents c cfg := ⟨hv, h⟩
  refine ⟨F.safe c cfg hd, fun hc => ?_, fun hc => ?_, fun hc => ?_⟩
  · obtain ⟨h1, h2, -⟩ := F.run c cfg hd t rfl hc
    exact ⟨h1, h2.1, h2.2⟩
  · obtain ⟨-, h1, h2, -⟩ := F.halt c cfg hd t rfl hc
    exact ⟨h1, h2.1, h2.2⟩
  · exact (block_inf (simple_follows T) (simple_noGiveUp T) (simple_inf T) hk off maxSim 0 c cfg hd t rfl
      hc).1

/-- The start configuration of the block machine, with any legal offset, means the start configuration
of the base machine. -/
theorem C06_block_machine_start (T : Table) (k off maxSim : Nat) (hoff : off < k) :
    blockValid k (initDC (block (simple T) k off maxSim)) ∧
      Represents (blockFlat k 0 (initDC (block (simple T) k off maxSim))) init :=
  block_init (simple_init T) (Nat.lt_of_le_of_lt (Nat.zero_le _) hoff) hoff

-- a transition of the block machine with an offset; it meets the hypotheses by `C06_block_machine_start`
example : let t := (block (simple exBB2) 3 1 100).trans [0, 0, 0] (.offset (some 0) 1) .R
    (t.cond, t.sym, t.st, t.dir, t.steps) = (.running, [1, 1, 1], .plain (some 0), .L, 4) := by decide
example : let t := (block (simple exBB2) 3 1 100).trans [0, 0, 0] (.plain (some 0)) .L
    (t.cond, t.sym, t.dir, t.steps) = (.running, [0, 0, 1], .R, 1) := by decide

/-- **C07.** The back-symbol machine.  Let `c` be any configuration that means (with the back symbol put
back behind the head) the configuration `cfg` of the base machine.  Then the transition never raises; a
running transition leads to the configuration meaning `cfg` after exactly the reported number of base
steps; a halting transition means that the base machine halts at exactly that step with that tape, and the
numbers of non-blank cells in the two half tapes and the state's own value add up to the score. -/
theorem C07_back_machine_exact (T : Table) (maxSim : Nat) (c : DC Nat (Option Nat × Nat)) (cfg : Config)
    (h : Represents (backFlat c) cfg) :
    let M := back (simple T) maxSim
    let t := M.trans c.front c.st c.dir
    let c' := c.move t.sym t.st t.dir
    t.cond ≠ .raised ∧
    (t.cond = .running → 0 < t.steps ∧ Represents (backFlat c') (run T t.steps cfg)) ∧
    (t.cond = .halt ∨ t.cond = .undefined → HaltsAt T cfg t.steps ∧
      RepresentsTape (backFlat c') (run T t.steps cfg).tape ∧
      ∀ a b, Cnt M.evalSym (c'.side .L) a → Cnt M.evalSym (c'.side .R) b →
        score (run T t.steps cfg) = a + b + M.evalSt t.st) ∧
    (t.cond = .infRepeat → NeverHalts T cfg) := by
  intro M t c'
  have F := back_follows (simple_follows T) (simple_shift _) maxSim
  have hd : backDen Represents c cfg := h
  refine ⟨F.safe c cfg hd, fun hc => ?_, fun hc => ?_, fun hc => ?_⟩
  · obtain ⟨h1, h2, -⟩ := F.run c cfg hd t rfl hc
    exact ⟨h1, h2⟩
  · obtain ⟨-, h1, h2, -⟩ := F.halt c cfg hd t rfl hc
    exact ⟨h1, h2, fun a b ha hb => back_scored (simple_scored T) maxSim c' _ a b h2 ha hb⟩
  · exact (back_inf (simple_follows T) (simple_noGiveUp T) (simple_inf T) maxSim c cfg hd t rfl hc).1

theorem C07_back_machine_start (T : Table) (maxSim : Nat) :
    Represents (backFlat (initDC (back (simple T) maxSim))) init := back_init (simple_init T) maxSim

example : let t := (back (simple exBB2) 100).trans 0 (some 0, 1) .R
    (t.cond, t.sym, t.st, t.dir, t.steps) = (.running, 1, (some 1, 1), .R, 1) := by decide
example : let t := (back (simple exBB2) 100).trans 1 (some 0, 1) .R
    (t.cond, t.sym, t.st, t.dir, t.steps) = (.halt, 1, (none, 1), .R, 2) := by decide

/-! ## C05: nested macro machines -/

/-- The full claim: an infinite-repeat verdict of a back-symbol machine over a block machine is right. -/
def C05_claim : Prop :=
  ∀ (T : Table) (k off maxBlock maxBack : Nat), off < k →
    ∀ (c : DC (List Nat) (BSt (Option Nat) × List Nat)) (cfg : Config),
      blockValid k (backFlat c) → Represents (blockFlat k 0 (backFlat c)) cfg →
      ((back (block (simple T) k off maxBlock) maxBack).trans c.front c.st c.dir).cond = .infRepeat →
      NeverHalts T cfg

/-- **C05 (partial).** The claim holds when the inner block machine never gives up in a valid
configuration.  Missing: the case in which it does give up; there the claim is false, see
`C05_claim_false`. -/
theorem C05_nested_repeat_sound_partial (T : Table) (k off maxBlock maxBack : Nat) (hk : 0 < k)
    (c : DC (List Nat) (BSt (Option Nat) × List Nat)) (cfg : Config)
    (hng : ∀ c cfg, blockValid k c → Represents (blockFlat k 0 c) cfg →
      ((block (simple T) k off maxBlock).trans c.front c.st c.dir).cond ≠ .gaveUp)
    (hv : blockValid k (backFlat c)) (h : Represents (blockFlat k 0 (backFlat c)) cfg)
    (hc : ((back (block (simple T) k off maxBlock) maxBack).trans c.front c.st c.dir).cond = .infRepeat) :
    NeverHalts T cfg :=
  (back_inf (block_follows (simple_follows T) (simple_shift _) hk off maxBlock 0)
    (fun c cfg h => hng c cfg h.1 h.2)
    (block_inf (simple_follows T) (simple_noGiveUp T) (simple_inf T) hk off maxBlock 0) maxBack c cfg
    ⟨hv, h⟩ _ rfl hc).1

/-- In particular it holds for blocks of size 1, where the hypothesis of the previous theorem is met: a
block of size 1 is left after one step. -/
theorem C05_block_size_one (T : Table) (maxBlock maxBack : Nat) (hm : 0 < maxBlock)
    (c : DC (List Nat) (BSt (Option Nat) × List Nat)) (cfg : Config)
    (hv : blockValid 1 (backFlat c)) (h : Represents (blockFlat 1 0 (backFlat c)) cfg)
    (hc : ((back (block (simple T) 1 0 maxBlock) maxBack).trans c.front c.st c.dir).cond = .infRepeat) :
    NeverHalts T cfg := by
  refine C05_nested_repeat_sound_partial T 1 0 maxBlock maxBack (by decide) c cfg ?_ hv h hc
  intro c cfg hv h hg
  have hw := blockFlat_window (by decide) 0 c hv
  have hr := blockPos_range (by decide) hv
  obtain ⟨b, -, hst, hne, -⟩ := h
  rw [hw] at hst
  change c.st.base = cfg.state at hst
  obtain ⟨q, hq⟩ := Option.ne_none_iff_exists'.1 hne
  rw [hq] at hst
  rw [block_trans, hst] at hg
  have hl : c.front.length = 1 := hv.1 _ _
  have A := abs_spec T (fun _ => 0) 0 c.front q (blockPos 1 c.st c.dir) c.dir maxBlock hr.1 (by rw [hl]; exact hr.2)
  have hs := A.gave hg
  have i0 := A.inside 0 (by omega)
  have i1 := A.inside 1 (by omega)
  have l0 := A.live 0 (by omega)
  simp only [run, Spec.step, hl] at i0 i1
  cases hd : (T q (patch (fun _ => 0) 0 c.front (0 + blockPos 1 c.st c.dir))).dir <;>
    simp only [hd, Dir.delta] at i1 <;> omega

-- such a verdict is really given
example : ((back (block (simple bouncer) 1 0 1000) 1000).trans [0] (.plain (some 1), [0]) .R).cond
    = .infRepeat := by decide +kernel

/-- A machine that walks to and fro between two cells for 129 steps, then does a short loop whose
contents happen to repeat at the moment the inner machine gives up, and then halts. -/
def c05T : Table := fun q a =>
  if q < 129 then .go (if q % 2 = 1 then 1 else a) (if q % 2 = 0 then .L else .R) (q + 1)
  else match q, a with
    | 129, 1 => .go 1 .L 130
    | 130, 0 => .go 0 .R 131
    | 131, 1 => .go 1 .L 132
    | 132, 0 => .go 0 .R 133
    | 133, 1 => .go 1 .L 134
    | 134, 0 => .go 0 .R 128
    | _, _ => .halt 1 .R

/-- the start configuration of the back-symbol machine over 2-blocks -/
def c05Start : DC (List Nat) (BSt (Option Nat) × List Nat) :=
  initDC (back (block (simple c05T) 2 0 5) 1000)

/-- With a limit of 5 steps per block the nested machine reports an infinite repeat for a machine that
halts. -/
theorem C05_claim_false : ¬ C05_claim := by
  intro h
  have h1 := h c05T 2 0 5 1000 (by decide) c05Start init
    (back_init (Den := blockDen 2 0 Represents) (block_init (simple_init c05T) (by decide) (by decide)) 1000).1
    (back_init (Den := blockDen 2 0 Represents) (block_init (simple_init c05T) (by decide) (by decide)) 1000).2
    (by decide +kernel)
  have F := back_follows (block_follows (simple_follows c05T) (simple_shift _) (k := 2) (by decide) 0 1000 0)
    (block_shift (simple_shift _) (by decide) 0) 1000
  have h2 := F.halt (initDC (back (block (simple c05T) 2 0 1000) 1000)) init
    (back_init (block_init (simple_init c05T) (by decide) (by decide)) 1000) _ rfl (by decide +kernel)
  exact h1 _ h2.2.1.1

/-! ## C08: the transition cache -/

/-- **C08.** Whatever is looked up in whatever order, and whatever the capacity, every lookup through
the cache returns the freshly computed value and never raises. -/
theorem C08_cache_transparent {κ ν : Type} [DecidableEq κ] (eval : κ → ν) (maxCells : Nat)
    (ks : List κ) : (Cache.lookups eval maxCells [] ks).2 = ks.map (fun k => some (eval k)) := by
  have key : ∀ (ks : List κ) (table : List (κ × ν)),
      (∀ k v, Py.dget table k = some v → v = eval k) →
      (Cache.lookups eval maxCells table ks).2 = ks.map (fun k => some (eval k)) := by
    intro ks
    induction ks with
    | nil => intros; rfl
    | cons k ks ih =>
      intro table ht
      have hset : ∀ t : List (κ × ν), (∀ k v, Py.dget t k = some v → v = eval k) →
          ∀ k' v, Py.dget (Py.dset t k (eval k)) k' = some v → v = eval k' := by
        intro t h k' v hv
        rw [Py.dget_dset] at hv
        split at hv
        · next e => cases hv; rw [e]
        · exact h k' v hv
      have h1 : (∀ k' v, Py.dget (Cache.lookup eval maxCells table k).1 k' = some v → v = eval k') ∧
          (Cache.lookup eval maxCells table k).2 = some (eval k) := by
        unfold Cache.lookup
        simp only
        split
        · split
          · refine ⟨hset [] (fun k v h => by simp [Py.dget] at h), ?_⟩
            rw [Py.dget_dset, if_pos rfl]
          · refine ⟨hset table ht, ?_⟩
            rw [Py.dget_dset, if_pos rfl]
        · next h =>
          refine ⟨ht, ?_⟩
          obtain ⟨v, hv⟩ : ∃ v, Py.dget table k = some v := by
            cases hd : Py.dget table k with
            | none => rw [hd] at h; simp at h
            | some v => exact ⟨v, rfl⟩
          rw [hv, ht k v hv]
      simp only [Cache.lookups, List.map_cons, h1.2, ih _ h1.1]
  exact key ks [] (fun k v h => by simp [Py.dget] at h)

/-- The cache never holds more than `max_cells` entries (one, if the capacity is zero). -/
theorem C08_cache_bounded {κ ν : Type} [DecidableEq κ] (eval : κ → ν) (maxCells : Nat)
    (ks : List κ) : (Cache.lookups eval maxCells [] ks).1.length ≤ max maxCells 1 := by
  have hlen : ∀ (t : List (κ × ν)) k v, (Py.dset t k v).length ≤ t.length + 1 := Py.length_dset_le
  have key : ∀ (ks : List κ) (table : List (κ × ν)), table.length ≤ max maxCells 1 →
      (Cache.lookups eval maxCells table ks).1.length ≤ max maxCells 1 := by
    intro ks
    induction ks with
    | nil => intro t h; exact h
    | cons k ks ih =>
      intro table ht
      apply ih
      unfold Cache.lookup
      simp only
      split
      · split
        · have := hlen [] k (eval k); simp only [List.length_nil] at this; omega
        · have := hlen table k (eval k); omega
      · exact ht
  exact key ks [] (by simp)

-- the cache is cleared on the way
example : Cache.lookups (fun n : Nat => n * n) 2 [] [3, 4, 3, 5, 3]
    = ([(5, 25), (3, 9)], [some 9, some 16, some 9, some 25, some 9]) := by decide

/-! ## C09: the run-length tape -/

/-- The compressed tapes that can be made by moves. -/
inductive ReachTape {σ : Type} [DecidableEq σ] (z : σ) : ChainTape σ Nat → Prop
  | init (d : Dir) : ReachTape z (ChainTape.init z d)
  | single {t t'} (sym : σ) (d : Dir) : ReachTape z t → t.singleMove natOps sym d = some t' → ReachTape z t'
  | chain {t t' n} (sym : σ) : ReachTape z t → t.chainMove natOps sym = some (t', n) → ReachTape z t'

/-- The uncompressed tape: the two half tapes as streams and the direction of the head. -/
def uncompressed {σ : Type} (z : σ) (t : ChainTape σ Nat) : DC σ Unit :=
  { st := (), dir := t.dir, side := fun d => unroll z (t.half d) }

/-- **C09.** For every compressed tape made by moves: the runs are positive, neighbouring runs differ and
both half tapes end in an infinite run of blanks; the symbol read is the front symbol; a single move
never raises and pops and pushes one symbol on the uncompressed tape; a chain move never raises and either
reports infinity and changes nothing, because the whole half tape in front consists of the front symbol,
or reports the length of the run in front (the next symbol is different) and does that many single moves
in the same direction. -/
theorem C09_chain_tape_faithful {σ : Type} [DecidableEq σ] (z : σ) (t : ChainTape σ Nat)
    (ht : ReachTape z t) :
    (∀ d, WFHalf z (t.half d)) ∧
    t.topSymbol = some (uncompressed z t).front ∧
    (∀ sym d, ∃ t', t.singleMove natOps sym d = some t' ∧
      uncompressed z t' = (uncompressed z t).move sym () d) ∧
    (∀ sym, ∃ t' n, t.chainMove natOps sym = some (t', n) ∧
      match n with
      | none => t' = t ∧ ∀ i, (uncompressed z t).side t.dir i = (uncompressed z t).front
      | some n => 0 < n ∧ (∀ i, i < n → (uncompressed z t).side t.dir i = (uncompressed z t).front) ∧
          (uncompressed z t).side t.dir n ≠ (uncompressed z t).front ∧
          uncompressed z t' = (fun c => c.move sym () c.dir)^[n] (uncompressed z t)) := by
  have hwf : t.WF z := by
    induction ht with
    | init d => exact ChainTape.wf_init z d
    | @single t t' sym d _ h ih =>
      obtain ⟨t'', h1, h2, -⟩ := ChainTape.singleMove_spec ih sym d () ()
      rw [h] at h1; cases h1; exact h2
    | @chain t t' n sym _ h ih =>
      have hw := ih t.dir
      match hb : t.half t.dir with
      | [] => rw [hb] at hw; exact hw.elim
      | ⟨a, none⟩ :: rest =>
        rw [ChainTape.chainMove_inf sym hb] at h; cases h; exact ih
      | ⟨a, some m⟩ :: rest =>
        obtain ⟨t'', h1, h2, -⟩ := ChainTape.chainMove_fin ih sym hb
        rw [h] at h1; cases h1; exact h2
  refine ⟨hwf, ChainTape.topSymbol_spec hwf (), fun sym d => ?_, fun sym => ?_⟩
  · obtain ⟨t', h1, -, -, h2⟩ := ChainTape.singleMove_spec hwf sym d () ()
    exact ⟨t', h1, h2⟩
  · have hw := hwf t.dir
    have hfront : (uncompressed z t).front = unroll z (t.half t.dir) 0 := rfl
    have hside : (uncompressed z t).side t.dir = unroll z (t.half t.dir) := rfl
    rw [hfront, hside]
    match hb : t.half t.dir with
    | [] => rw [hb] at hw; exact hw.elim
    | ⟨a, none⟩ :: rest =>
      exact ⟨t, none, ChainTape.chainMove_inf sym hb, rfl, fun _ => rfl⟩
    | ⟨a, some n⟩ :: rest =>
      obtain ⟨t', h1, -, hd, hu1, hu2⟩ := ChainTape.chainMove_fin hwf sym hb
      rw [hb] at hw
      obtain ⟨hn, ⟨b, r, hr, hab⟩, hwr⟩ := wfHalf_cons.1 hw
      have hlt : ∀ i, i < n → pre (List.replicate n a) (unroll z rest) i = a := by
        intro i hi
        rw [pre_lt _ _ (by simpa using hi)]; simp
      have h0 : pre (List.replicate n a) (unroll z rest) 0 = a := hlt 0 hn
      refine ⟨t', some n, h1, hn, fun i hi => ?_, ?_, ?_⟩
      · rw [unroll_fin, hlt i hi, h0]
      · rw [unroll_fin, h0]
        have := pre_ge (List.replicate n a) (unroll z rest) 0
        simp only [List.length_replicate, Nat.add_zero] at this
        rw [this, hr]
        rw [hr] at hwr
        obtain ⟨s, num⟩ := b
        cases num with
        | none => exact Ne.symm hab
        | some m =>
          have hm := (wfHalf_cons.1 hwr).1
          rw [unroll_fin, pre_lt _ _ (by simpa using hm)]
          simpa using Ne.symm hab
      · have key : ∀ (n : Nat) (c : DC σ Unit) (rest : Nat → σ),
            c.side c.dir = pre (List.replicate n a) rest →
            (fun c : DC σ Unit => c.move sym () c.dir)^[n] c =
              { st := (), dir := c.dir
                side := fun e => if e = c.dir then rest else pre (List.replicate n sym) (c.side e) } := by
          intro n
          induction n with
          | zero =>
            intro c rest h
            ext1
            · rfl
            · rfl
            · rename_i e
              by_cases he : e = c.dir
              · subst he; simpa using h
              · simp [he]
          | succ n ih =>
            intro c rest h
            rw [Function.iterate_succ_apply, ih (c.move sym () c.dir) rest]
            · ext1
              · rfl
              · rfl
              · rename_i e
                show (if e = c.dir then rest else _) = if e = c.dir then rest else _
                by_cases he : e = c.dir
                · rw [if_pos he, if_pos he]
                · rw [if_neg he, if_neg he]
                  have he' : e = c.dir.other := Dir.ne_iff.1 he
                  have hm : (c.move sym () c.dir).side e = cons sym (c.side e) := by
                    simp only [DC.move, he, if_false]
                    rw [if_pos he']
                  rw [hm, List.replicate_succ']
                  simp
            · show (c.move sym () c.dir).side c.dir = _
              simp only [DC.move, if_true]
              rw [if_neg (Ne.symm (Dir.other_ne _)), h]
              rfl
        rw [key n (uncompressed z t) (unroll z rest) (by rw [← unroll_fin, ← hb]; rfl)]
        ext1
        · rfl
        · exact hd
        · rename_i e
          show unroll z (t'.half e) = if e = t.dir then unroll z rest
            else pre (List.replicate n sym) (unroll z (t.half e))
          by_cases he : e = t.dir
          · subst he; rw [if_pos rfl, hu1]
          · have he' := Dir.ne_iff.1 he
            subst he'
            rw [if_neg he, hu2]

-- a chain move over a run of two, which merges into the run behind
example : (ChainTape.mk Dir.R [⟨1, some 3⟩, ⟨0, none⟩] [⟨2, some 2⟩, ⟨1, some 1⟩, ⟨0, none⟩]).chainMove
    natOps 1 = some (⟨.R, [⟨1, some 5⟩, ⟨0, none⟩], [⟨1, some 1⟩, ⟨0, none⟩]⟩, some 2) := by decide

end Props
