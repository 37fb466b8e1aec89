import Verif.Lemmas.Curses

/-!
# C80: The visual simulators show the run of the machine
-/

namespace Props
open Spec (Table Dir Config init run HaltsAt NeverHalts)
open Spec.Visual Model.Visual Model.Curses

/-! ## Start configurations -/

/-- **C80 (start).** A start configuration written in the language of `Spec.Visual.Start` is read as what it means: the
simulator that is set up has its state, its tape and the head at position 0. -/
theorem C80_start (s : Start) (h : s.Ok) :
    ∃ L R sim, parseConfig s.text = some (some s.state, L, R) ∧ Model.Visual.start s.state L R = some sim ∧
      sim.halted = false ∧ sim.stepNum = 0 ∧ sim.state = s.config.state ∧ sim.tape.position = s.config.pos ∧
      ∀ p, sim.tape.readPos p = some (s.config.tape p) := by
  obtain ⟨L, R, e, hc, _, _⟩ := parse_start h
  obtain ⟨sim, es, hs, hn, _, _⟩ := start_eq s.state L R
  refine ⟨L, R, sim, e, es, hs.halted, hn, ?_, ?_, fun p => ?_⟩
  · rw [hs.state, hc]
  · rw [hs.pos, hc]
  · rw [Model.DirectTape.readPos_eq, hs.tape, hc]

/-- the example of the help text, `1 23^8 21 <B 0^6 12^7 1` (line 123) -/
def helpStart : Start :=
  { left := [⟨[1], none⟩, ⟨[2, 3], some 8⟩, ⟨[2, 1], none⟩], dir := .L, state := 1,
    right := [⟨[0], some 6⟩, ⟨[1, 2], some 7⟩, ⟨[1], none⟩] }

example : helpStart.text = "1 23^8 21 <B 0^6 12^7 1".toList := by decide
example : helpStart.Ok := by
  refine ⟨?_, ?_, by decide⟩ <;> unfold Run.Ok helpStart <;> decide
/-- the head looks at the last symbol of the left part -/
example : (List.range 5).map (fun i : Nat => helpStart.config.tape ((i : Int) - 2)) = [3, 2, 1, 0, 0] := by decide

/-- **C80 (start).** A text without a head is refused with an exception. -/
theorem C80_no_head (o : Opts) (M : Table) (f : Nat) (rs : List Run) (hne : rs ≠ []) (h : ∀ r ∈ rs, r.Ok) :
    Model.Visual.main o M f (spaced (rs.map Run.text)) = none := by
  have hw : Py.words (spaced (rs.map Run.text)) = rs.map Run.text := by
    rw [spaced_join]
    have key := Model.ExprText.words_join (rs.map Run.text) (by simpa using hne) (fun w hw => by
      obtain ⟨r, hr, rfl⟩ := List.mem_map.1 hw
      exact ⟨run_ne (h r hr), fun c hc => (ink_facts (run_ink (h r hr) c hc)).1⟩) [] (Or.inl rfl)
    rw [List.append_nil] at key
    rw [key]
    show _ ++ [] = _
    simp
  have hp : parseConfig (spaced (rs.map Run.text)) = some (none, (rs.map Run.syms).flatten, []) := by
    unfold parseConfig
    rw [hw]
    have := loop_runs rs [] ⟨[], [], true, false, none⟩ h
    rw [List.append_nil] at this
    rw [this]
    simp [parseLoop]
  unfold Model.Visual.main
  rw [hp]
  split
  · rename_i h0
    rw [h0] at hw
    have : rs.map Run.text = [] := by rw [← hw]; rfl
    exact absurd (by simpa using this) hne
  · rfl

example : Model.Visual.main ⟨true, false, false, false, 80, []⟩ (fun _ _ => .undef) 5 "1^5 0".toList = none := by decide +kernel

/-! ## The picture -/

/-- **C80 (picture).** The simulator can draw every machine with at most 52 states and 7 symbols, from every start with its
states and symbols. -/
theorem C80_fits {M : Table} {nS nK : Nat} (hM : Spec.WFTable M nS nK) (hK : nK ≤ 7) (hS : nS ≤ 52)
    (hh : ∀ q a w d, M q a = .halt w d → w < 7) {names : List (List Char)} (hn : nS ≤ names.length) {c0 : Config}
    (hq : ∀ q, c0.state = some q → q < nS) (ht : ∀ p, c0.tape p < nK) (k : Nat) : Fits names (run M k c0) := by
  have key : ∀ k, (∀ p, (run M k c0).tape p < 7) ∧
      ∀ q, (run M k c0).state = some q → q < nS ∧ ∀ p, (run M k c0).tape p < nK := by
    intro k
    induction k with
    | zero => exact ⟨fun p => lt_of_lt_of_le (ht p) hK, fun q hq' => ⟨hq q hq', ht⟩⟩
    | succ k ih =>
      rw [Spec.run_succ']
      cases hs : (run M k c0).state with
      | none =>
        rw [Spec.step_halted hs]
        exact ⟨ih.1, fun q e => by rw [hs] at e; cases e⟩
      | some q =>
        obtain ⟨hqS, hT⟩ := ih.2 q hs
        rw [Spec.step_eq hs]
        have ha := hT (run M k c0).pos
        cases hi : M q ((run M k c0).tape (run M k c0).pos) with
        | undef =>
          refine ⟨fun p => ?_, fun q' e => by cases e⟩
          by_cases hp : p = (run M k c0).pos
          · subst hp; simp [Spec.Instr.write]
          · simpa [Function.update_of_ne hp] using ih.1 p
        | halt w d =>
          refine ⟨fun p => ?_, fun q' e => by cases e⟩
          by_cases hp : p = (run M k c0).pos
          · subst hp; simpa [Spec.Instr.write] using hh _ _ _ _ hi
          · simpa [Function.update_of_ne hp] using ih.1 p
        | go w d q2 =>
          obtain ⟨hw, hq2⟩ := hM.closed q _ w d q2 hqS ha hi
          have hall : ∀ p, (Function.update (run M k c0).tape (run M k c0).pos (Spec.Instr.go w d q2).write) p < nK := by
            intro p
            by_cases hp : p = (run M k c0).pos
            · subst hp; simpa [Spec.Instr.write] using hw
            · simpa [Function.update_of_ne hp] using hT p
          refine ⟨fun p => lt_of_lt_of_le (hall p) hK, fun q' e => ?_⟩
          injection e with e
          subst e
          exact ⟨hq2, hall⟩
  exact ⟨(key k).1, fun q e => ⟨lt_of_lt_of_le ((key k).2 q e).1 hS, lt_of_lt_of_le ((key k).2 q e).1 hn⟩⟩

/-- **C80 (picture).** A terminal shows, for a start configuration and any number of rounds of the program, exactly one line
for every step at which one is asked for, in order: at first the start, then the configurations after 1, 2, … steps, each
with its number, its tape and its head; and at the end, if the machine halts, at which step.  The program ends exactly when
the machine halts. -/
theorem C80_visual (o : Opts) (M : Table) (s : Start) (h : s.Ok) (hf : ∀ k, Fits o.names (run M k s.config))
    (hn : ∀ n ∈ o.names, ∀ ch ∈ n, ch ≠ ESC) (rounds : Nat) :
    ∃ out fin N, Model.Visual.main o M rounds s.text = some (out, fin) ∧ N ≤ rounds ∧
      (fin = true → HaltsAt M s.config N) ∧
      (fin = false → N = rounds ∧ ∀ m ≤ rounds, (run M m s.config).state ≠ none) ∧
      shown .plain 49 out = (List.range (N + 1)).flatMap (shownAt o M s.config s.lo s.hi) ++
        if fin then plainText (message N) else [] := by
  obtain ⟨sim, e, hat⟩ := main_start (o := o) (M := M) (f := rounds) h
  obtain ⟨out, fin, N, e1, h1, h2, h3, h4, h5⟩ := run_draw hf hn rounds hat
  refine ⟨out, fin, N, e.trans e1, h1, fun hfin => ⟨h3.1 hfin, h2⟩, fun hfin => ?_, h5⟩
  refine ⟨h4 hfin, fun m hm => ?_⟩
  rcases Nat.lt_or_ge m N with hlt | hge
  · exact h2 m hlt
  · have : m = N := by have := h4 hfin; omega
    subst this
    intro hnone
    rw [h3.2 hnone] at hfin
    cases hfin

/-- **C80 (picture).** The same without a start configuration: from the blank tape. -/
theorem C80_visual_blank (o : Opts) (M : Table) (hf : ∀ k, Fits o.names (run M k init))
    (hn : ∀ n ∈ o.names, ∀ ch ∈ n, ch ≠ ESC) (rounds : Nat) :
    ∃ out fin N, Model.Visual.main o M rounds [] = some (out, fin) ∧ N ≤ rounds ∧
      (fin = true → HaltsAt M init N) ∧
      (fin = false → N = rounds ∧ ∀ m ≤ rounds, (run M m init).state ≠ none) ∧
      shown .plain 49 out = (List.range (N + 1)).flatMap (shownAt o M init 0 0) ++
        if fin then plainText (message N) else [] := by
  obtain ⟨sim, e, hat⟩ := At.start (M := M) (q := 0) (L := []) (R := [])
  have hc : (⟨some 0, 0, twoSided [] []⟩ : Config) = init := by
    unfold init
    congr 1
    funext p
    unfold twoSided
    split <;> rfl
  rw [hc] at hat
  obtain ⟨out, fin, N, e1, h1, h2, h3, h4, h5⟩ := run_draw (lo := firstCell []) (hi := lastCell []) hf hn rounds hat
  refine ⟨out, fin, N, ?_, h1, fun hfin => ⟨h3.1 hfin, h2⟩, fun hfin => ?_, h5⟩
  · unfold Model.Visual.main
    rw [if_pos rfl, e, Option.bind_some, e1]
  · refine ⟨h4 hfin, fun m hm => ?_⟩
    rcases Nat.lt_or_ge m N with hlt | hge
    · exact h2 m hlt
    · have : m = N := by have := h4 hfin; omega
      subst this
      intro hnone
      rw [h3.2 hnone] at hfin
      cases hfin

/-- **C80 (picture).** Symbols have different colours and states different letters (none of them `!`), so a line determines
the symbols at its positions, and the head and the state if the head is in view. -/
theorem C80_legible : (∀ a < 7, ∀ b < 7, colour a = colour b → a = b) ∧ (∀ p < 52, ∀ q < 52, letter p = letter q → p = q) ∧
    ∀ q < 52, letter q ≠ '!' ∧ letter q ≠ ' ' := by
  refine ⟨by decide, by decide, by decide⟩

/-- **C80 (picture).** A line is exactly as wide as asked for (rounded down to an even number), for the first ten thousand
million steps. -/
theorem C80_width (o : Opts) (n : Nat) (c : Config) (name : List Char) (hw : 20 ≤ o.width) (hn : n < 10 ^ 10) (hname : name.length = 4)
    (ht : c.tape c.pos < 7) :
    ((line n (bounds o c).1 (bounds o c).2 name c).length : Int) = 2 * (o.width / 2) + 1 := by
  have h1 := Nat.toDigits_length 10 n 10 (by decide) hn
  have h2 := Nat.toDigits_length 10 (c.tape c.pos) 2 (by decide) (by omega)
  have h3 : ((interval (bounds o c).1 (bounds o c).2).length : Int) = 2 * (o.width / 2 - 10) + 1 := by
    unfold interval
    rw [List.length_map, List.length_range]
    unfold bounds
    dsimp only
    split <;> simp only <;> omega
  unfold line plainText aligned
  simp only [List.length_append, List.length_map, List.length_replicate, List.length_cons, List.length_nil]
  push_cast
  omega

example : (line 123 (-5) 5 "   0".toList init).length = 31 := by decide +kernel

/-- a machine of two states: `1RB1LB_1LA1RZ` -/
def visMachine : Table := fun q a => match q, a with
  | 0, 0 => .go 1 .R 1
  | 0, 1 => .go 1 .L 1
  | 1, 0 => .go 1 .L 0
  | _, _ => .halt 1 .R

/-- The options of the examples: all steps, 30 columns -/
def allSteps : Opts := ⟨true, false, false, false, 30, ["   0".toList, "   1".toList]⟩

/-- It meets the hypotheses of `C80_visual`, also from the tape `10 <B`. -/
example (k : Nat) (s : Start) (hs : s = ⟨[⟨[1, 0], none⟩], .L, 1, []⟩) : Fits allSteps.names (run visMachine k s.config) := by
  subst hs
  refine C80_fits (nS := 2) (nK := 2) ⟨by decide, by decide, ?_⟩ (by decide) (by decide) ?_ (by decide) ?_ ?_ k
  · intro q a w d q' hq ha e
    unfold visMachine at e
    split at e <;> injection e <;> omega
  · intro q a w d e
    unfold visMachine at e
    split at e <;> injection e <;> omega
  · intro q e
    injection e with e
    rw [← e]; decide
  · intro p
    show twoSided [1, 0] [] (p - 1) < 2
    unfold twoSided
    split
    · simp
    · generalize (-(p - 1) - 1).toNat = i
      match i with
      | 0 | 1 => decide
      | n + 2 => simp

/-- Its first two lines and the end: colours 49 and 41, the head as a letter -/
example : (Model.Visual.main allSteps visMachine 9 []).map (fun r => ((shown .plain 49 r.1).take 71, (shown .plain 49 r.1).length, r.2)) =
    some ((plainText "         0: ".toList ++ [⟨' ', 49⟩, ⟨' ', 49⟩, ⟨' ', 49⟩, ⟨' ', 49⟩, ⟨' ', 49⟩, ⟨'A', 49⟩] ++
        plainText ("        0  0\n".toList) ++
        plainText "         1: ".toList ++ [⟨' ', 49⟩, ⟨' ', 49⟩, ⟨' ', 49⟩, ⟨' ', 49⟩, ⟨' ', 49⟩, ⟨' ', 41⟩, ⟨'B', 49⟩] ++
        plainText "       1  0\n".toList ++ plainText "         ".toList), 237, true) := by decide +kernel

/-! ## The curses simulator -/

/-- **C80 (curses).** Whatever keys are pressed: if the program gets through them, the screen shows in line `r` and column `x`
the configuration at time `curLine + r` at position `curPos - COLS / 2 + x`: the colour of its symbol, and the letter of the
state where the head is; lines from the halting on are empty. -/
theorem C80_curses_screen (M : Table) (e : Env) (hbs : 2 ≤ e.bs) (hl : e.lines ≤ e.bs) (hc : 2 * e.cols ≤ e.bs)
    (fuel : Nat) (screen : Nat → Nat → Cell) (keys : List Key) (v : Vis) (h : Model.Curses.sim M e fuel screen keys = some (.ok v)) :
    0 ≤ v.curLine ∧ ∀ r < e.lines, ∀ x < e.cols, v.screen r x =
      if (run M (v.curLine.toNat + r) init).state = none then ⟨' ', 1⟩
      else pairLook (run M (v.curLine.toNat + r) init) (v.curPos - ((e.cols / 2 : Nat) : Int) + x) := by
  have he : Roomy e := ⟨hbs, hl, hc⟩
  unfold Model.Curses.sim at h
  cases e1 : initPad M e screen with
  | error y => rw [e1] at h; cases h
  | ok v0 =>
    rw [e1] at h
    obtain ⟨p0, s0, _, _⟩ := initPad_ok he e1
    obtain ⟨hp, hs⟩ := inputLoop_ok he keys v0 v p0 s0 h
    refine ⟨hp.line0, fun r hr x hx => ?_⟩
    rw [hs r hr x hx]
    have hline := hp.lines
    have hl0 := hp.line0
    by_cases hlt : v.curLine.toNat + r < v.sim.stepNum
    · rw [if_pos hlt, if_neg (hp.inv.before _ hlt)]
    · rw [if_neg hlt]
      have hnone : (run M v.sim.stepNum init).state = none := by
        rcases hp.full with hh | hh
        · have := hp.inv.sim.sim.halted
          rw [hh] at this
          simpa using this.symm
        · omega
      rw [if_pos (Spec.run_none_mono (by omega) hnone)]
      rfl

/-- **C80 (curses).** How the keys move the view. -/
theorem C80_curses_keys (M : Table) (e : Env) (hbs : 2 ≤ e.bs) (hl : e.lines ≤ e.bs) (hc : 2 * e.cols ≤ e.bs)
    (fuel : Nat) (screen : Nat → Nat → Cell) (keys : List Key) (v : Vis) (h : Model.Curses.sim M e fuel screen keys = some (.ok v))
    (k : Key) (v' : Vis) (h' : press M e fuel v k = some (.ok v')) :
    (v'.curLine, v'.curPos) = match k with
      | .down => (v.curLine + 1, v.curPos)
      | .up => (max 0 (v.curLine - 1), v.curPos)
      | .pageDown => (v.curLine + e.lines, v.curPos)
      | .pageUp => (max 0 (v.curLine - e.lines), v.curPos)
      | .top => (0, v.curPos)
      | .right => (v.curLine, v.curPos + 1)
      | .left => (v.curLine, v.curPos - 1)
      | .center => (v.curLine, 0)
      | .other => (v.curLine, v.curPos) := by
  have he : Roomy e := ⟨hbs, hl, hc⟩
  unfold Model.Curses.sim at h
  cases e1 : initPad M e screen with
  | error y => rw [e1] at h; cases h
  | ok v0 =>
    rw [e1] at h
    obtain ⟨p0, s0, _, _⟩ := initPad_ok he e1
    obtain ⟨hp, _⟩ := inputLoop_ok he keys v0 v p0 s0 h
    have hl0 := hp.line0
    cases k with
    | down | up | pageDown | pageUp | top =>
      obtain ⟨_, _, g1, g2⟩ := moveVert_ok hp h'
      simp only [Prod.mk.injEq]
      exact ⟨by omega, g2⟩
    | right | left | center =>
      obtain ⟨_, _, g1, g2⟩ := moveHor_ok he hp h'
      simp only [Prod.mk.injEq]
      exact ⟨g1, by omega⟩
    | other =>
      injection h' with h'
      injection h' with h'
      subst h'
      rfl

/-- **C80 (curses).** For a machine that never halts the program gets through all keys: no loop is endless. -/
theorem C80_curses_ends (M : Table) (hM : NeverHalts M init) (e : Env) (hbs : 2 ≤ e.bs) (hl : e.lines ≤ e.bs)
    (hc : 2 * e.cols ≤ e.bs) (screen : Nat → Nat → Cell) (keys : List Key) :
    ∃ F, ∀ fuel ≥ F, Model.Curses.sim M e fuel screen keys ≠ none := by
  have he : Roomy e := ⟨hbs, hl, hc⟩
  unfold Model.Curses.sim
  cases e1 : initPad M e screen with
  | error y => exact ⟨0, fun _ _ => by simp⟩
  | ok v0 =>
    obtain ⟨p0, s0, _, _⟩ := initPad_ok he e1
    obtain ⟨F, hF⟩ := inputLoop_ends he hM keys v0 p0 s0
    refine ⟨F, fun f hf => ?_⟩
    obtain ⟨r, hr⟩ := hF f hf
    simp only [hr]
    simp

/-- **C80 (curses).** There is no exception if the states have letters and the head stays clear of the right edge of the
buffer. -/
theorem C80_curses_no_error (M : Table) (e : Env) (hbs : 2 ≤ e.bs) (hl : e.lines ≤ e.bs) (hc : 2 * e.cols ≤ e.bs)
    (hq : ∀ k q, (run M k init).state = some q → q < 26)
    (hr : ∀ k, (run M k init).pos + 3 ≤ ((e.bs - e.bs / 2 : Nat) : Int))
    (fuel : Nat) (screen : Nat → Nat → Cell) (keys : List Key) (x : Exn) :
    Model.Curses.sim M e fuel screen keys ≠ some (.error x) := by
  have he : Roomy e := ⟨hbs, hl, hc⟩
  obtain ⟨v, e1⟩ := initPad_some he ⟨hq, hr⟩ screen
  obtain ⟨p0, s0, _, _⟩ := initPad_ok he e1
  unfold Model.Curses.sim
  rw [e1]
  exact inputLoop_tame he ⟨hq, hr⟩ keys v p0 s0

/-- **C80 (curses), negated.** A machine that halts before the screen is full: the first key that moves the view up or down
puts the program into an endless loop. -/
theorem C80_curses_hangs (M : Table) (n : Nat) (hM : HaltsAt M init n) (e : Env) (hbs : 2 ≤ e.bs) (hl : e.lines ≤ e.bs)
    (hc : 2 * e.cols ≤ e.bs) (hn : n < e.lines) (screen : Nat → Nat → Cell) (v : Vis) (hv : initPad M e screen = .ok v)
    (k : Key) (hk : k ∈ [Key.down, .up, .pageDown, .pageUp, .top]) (fuel : Nat) (keys : List Key) :
    Model.Curses.sim M e fuel screen (k :: keys) = none := by
  have he : Roomy e := ⟨hbs, hl, hc⟩
  obtain ⟨p0, s0, hl0, _⟩ := initPad_ok he hv
  have hnum : v.sim.stepNum ≤ n := by
    by_contra hgt
    exact p0.inv.before n (by omega) hM.1
  have hhalt : v.sim.halted = true := by
    rcases p0.full with hh | hh
    · exact hh
    · have := p0.height; omega
  have key : ∀ d, moveVert M e fuel v d = none := by
    intro d
    unfold moveVert
    simp only
    rw [vertLoop_hangs fuel { v with curLine := if v.curLine + d < 0 then 0 else v.curLine + d } hhalt (by
      show (if v.curLine + d < 0 then 0 else v.curLine + d) + (e.lines : Int) > v.sim.stepNum
      split <;> omega)]
    rfl
  have hpress : press M e fuel v k = none := by
    simp only [List.mem_cons, List.not_mem_nil, or_false] at hk
    rcases hk with rfl | rfl | rfl | rfl | rfl <;> exact key _
  unfold Model.Curses.sim
  rw [hv]
  simp only
  unfold inputLoop
  rw [hpress]

/-- **C80 (curses), negated.** If the head gets near the right edge of the buffer while the first page is drawn, and the
machine still runs in its last line, the program stops with an exception before it shows anything. -/
theorem C80_curses_corner (M : Table) (e : Env) (screen : Nat → Nat → Cell) (keys : List Key) (fuel : Nat)
    (hrun : (run M (e.bs - 1) init).state ≠ none) (j : Nat) (hj : j < e.bs)
    (hpos : (e.bs : Int) ≤ (run M j init).pos + 2 + ((e.bs / 2 : Nat) : Int)) :
    ∃ x, Model.Curses.sim M e fuel screen keys = some (.error x) := by
  unfold Model.Curses.sim
  cases e1 : initPad M e screen with
  | error x => exact ⟨x, rfl⟩
  | ok v =>
    have := initPad_corner e1 hrun j hj
    omega

/-- the machine that goes right for ever -/
def rightRunner : Table := fun _ _ => .go 1 .R 0

theorem rightRunner_at (k : Nat) : (run rightRunner k init).state = some 0 ∧ (run rightRunner k init).pos = k := by
  induction k with
  | zero => exact ⟨rfl, rfl⟩
  | succ k ih =>
    rw [Spec.run_succ', Spec.step_eq ih.1]
    refine ⟨rfl, ?_⟩
    show (run rightRunner k init).pos + 1 = _
    rw [ih.2]
    push_cast
    rfl

/-- Its first page is never shown, with any buffer. -/
example (e : Env) (screen : Nat → Nat → Cell) (fuel : Nat) : ∃ x, Model.Curses.sim rightRunner e fuel screen [] = some (.error x) := by
  rcases Nat.lt_or_ge 0 e.bs with h | h
  · exact C80_curses_corner rightRunner e screen [] fuel (by rw [(rightRunner_at _).1]; simp) (e.bs - 1) (by omega) (by
      rw [(rightRunner_at _).2]; omega)
  · refine ⟨.attribute, ?_⟩
    unfold Model.Curses.sim initPad
    rw [if_pos (by omega)]

/-- the same with the left-going machine: it is shown -/
def leftRunner : Table := fun _ _ => .go 1 .L 0

theorem leftRunner_at (k : Nat) : (run leftRunner k init).state = some 0 ∧ (run leftRunner k init).pos = -(k : Int) := by
  induction k with
  | zero => exact ⟨rfl, rfl⟩
  | succ k ih =>
    rw [Spec.run_succ', Spec.step_eq ih.1]
    refine ⟨rfl, ?_⟩
    show (run leftRunner k init).pos + -1 = _
    rw [ih.2]
    push_cast
    omega

example (screen : Nat → Nat → Cell) (keys : List Key) :
    ∃ F, ∀ fuel ≥ F, ∃ v, Model.Curses.sim leftRunner ⟨24, 80, 1000⟩ fuel screen keys = some (.ok v) := by
  obtain ⟨F, hF⟩ := C80_curses_ends leftRunner (fun n => by rw [(leftRunner_at n).1]; simp) ⟨24, 80, 1000⟩ (by decide) (by decide)
    (by decide) screen keys
  refine ⟨F, fun f hf => ?_⟩
  have h1 := hF f hf
  have h2 := C80_curses_no_error leftRunner ⟨24, 80, 1000⟩ (by decide) (by decide) (by decide)
    (fun k q hq => by rw [(leftRunner_at k).1] at hq; injection hq with hq; omega)
    (fun k => by rw [(leftRunner_at k).2]; push_cast; omega) f screen keys
  cases e : Model.Curses.sim leftRunner ⟨24, 80, 1000⟩ f screen keys with
  | none => exact absurd e h1
  | some r =>
    cases r with
    | error x => exact absurd e (h2 x)
    | ok v => exact ⟨v, rfl⟩

/-- A machine that halts at once hangs the program. -/
example (screen : Nat → Nat → Cell) (fuel : Nat) :
    Model.Curses.sim (fun _ _ => .undef) ⟨4, 4, 8⟩ fuel screen [.down] = none := by
  have hM : HaltsAt (fun _ _ => .undef) init 1 := ⟨rfl, fun m hm => by rw [show m = 0 by omega]; simp [init]⟩
  have hpos : ∀ k, (run (fun _ _ => .undef) k init).pos ≤ 1 := by
    intro k
    cases k with
    | zero => decide
    | succ k =>
      show (run (fun _ _ => .undef) k (Spec.step (fun _ _ => .undef) init)).pos ≤ 1
      rw [Spec.run_halted rfl]
      decide
  have hst : ∀ k q, (run (fun _ _ => .undef) k init).state = some q → q < 26 := by
    intro k q hq
    cases k with
    | zero => injection hq with hq; omega
    | succ k =>
      rw [Spec.run_none_mono (show 1 ≤ k + 1 by omega) rfl] at hq
      cases hq
  obtain ⟨v, hv⟩ := initPad_some (M := fun _ _ => .undef) (e := ⟨4, 4, 8⟩) ⟨by decide, by decide, by decide⟩
    ⟨hst, fun k => by have := hpos k; show _ ≤ (4 : Int); omega⟩ screen
  exact C80_curses_hangs _ 1 hM ⟨4, 4, 8⟩ (by decide) (by decide) (by decide) (by decide) screen v hv .down (by simp) fuel []

end Props
