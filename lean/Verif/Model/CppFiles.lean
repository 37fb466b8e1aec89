import Verif.Model.CppRecur

/-!
# Model of the C++ programs that read machines from text files (`cpp/src/direct_sim.cpp`, `direct_sim_all.cpp`,
`lin_recur_main.cpp` and the stream functions of `turing_machine.cpp`)

A file is a list of characters.  Times and headings that are printed are left out.
-/

namespace Model.Cpp

/-- `std::getline`: the line without its end and the rest of the stream, or a failure if nothing is left -/
def getline : List Char → Option (List Char × List Char)
  | [] => none
  | c :: s => some ((c :: s).takeWhile (· != '\n'), ((c :: s).dropWhile (· != '\n')).drop 1)

/-- `ReadTuringMachine` of a stream (turing_machine.cpp 120-173): null at the end of the stream -/
def readStream (s : List Char) : Out (Option (TM × List Char)) :=
  match getline s with
  | none => .ok none
  | some (line, rest) => do
    let tm ← readTM line
    .ok (some (tm, rest))

/-- the loop that skips lines (turing_machine.cpp 178-181); reading at the end of the stream fails without consequence -/
def skipLines : Nat → List Char → List Char
  | 0, s => s
  | k + 1, s => skipLines k (match getline s with
    | none => []
    | some (_, rest) => rest)

/-- `ReadTuringMachine` of a file and a line number (turing_machine.cpp 175-183) -/
def readLine (file : List Char) (lineNum : Int) : Out (Option TM) := do
  let r ← readStream (skipLines (lineNum - 1).toNat file)
  .ok (r.map (·.1))

/-- `direct_sim` (direct_sim.cpp 13-29): the number of steps and whether the machine has halted.  The machine is used through
a pointer, which must not be null. -/
def directSim (file : List Char) (lineNum numSteps : Int) : Out (Nat × Bool) := do
  match ← readLine file lineNum with
  | none => .ub
  | some tm =>
    let s ← seek tm numSteps Sim.new
    .ok (s.stepNum, s.isHalted)

/-- `lin_recur` (lin_recur_main.cpp 16-40, 51-53) -/
def lrMain (file : List Char) (lineNum : Int) (log2Steps : Nat) : Out LinRecur := do
  match ← readLine file lineNum with
  | none => .ub
  | some tm => lrDetect tm (2 ^ log2Steps)

/-- the output file and the counters of `direct_sim_all` (direct_sim_all.cpp 16-18, 21) -/
structure SimAll where
  out : List Char := []
  total : Nat := 0
  halted : Nat := 0
  unknown : Nat := 0
deriving DecidableEq, Repr

/-- `direct_sim_all` (direct_sim_all.cpp 14-45), at most the given number of rounds; each round uses up a line -/
def simAll (numSteps : Int) : Nat → List Char → SimAll → Out SimAll
  | fuel, s, st => do
    match ← readStream s with
    | none => .ok st
    | some (tm, rest) =>
      match fuel with
      | 0 => .more
      | fuel + 1 =>
        let sim ← seek tm numSteps Sim.new
        let text ← tm.write
        if sim.isHalted then
          simAll numSteps fuel rest
            { st with total := st.total + 1, halted := st.halted + 1,
                      out := st.out ++ text ++ " Halt ".toList ++ Nat.toDigits 10 sim.stepNum ++ ['\n'] }
        else
          simAll numSteps fuel rest
            { st with total := st.total + 1, unknown := st.unknown + 1,
                      out := st.out ++ text ++ " Unknown ".toList ++ Nat.toDigits 10 sim.stepNum ++ ['\n'] }

end Model.Cpp
