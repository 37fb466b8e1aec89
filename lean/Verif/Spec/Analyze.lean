import Verif.Model.Analyze

/-!
# What the numbers of `TM_Analyze.py` should be
-/

namespace Model.Analyze
open Model.Status Model.FileTools

/-- count, total, least and greatest of the numbers `vs`, none of which is 0 -/
structure Stat.Of (s : Stat) (vs : List Nat) : Prop where
  count : s.count = vs.length
  total : s.total = vs.sum
  least : match s.min with
    | none => vs = []
    | some m => m ∈ vs ∧ ∀ v ∈ vs, m ≤ v
  greatest : (∀ v ∈ vs, v ≤ s.max) ∧ (s.max ∈ vs ∨ vs = [] ∧ s.max = 0)

/-- count and greatest of the numbers `vs`, none of which is 0; the greatest is at least 0 -/
structure BigStat.Of (s : BigStat) (vs : List Int) : Prop where
  count : s.count = vs.length
  greatest : 0 ≤ s.max ∧ (∀ v ∈ vs, v ≤ s.max) ∧ (s.max ∈ vs ∨ s.max = 0)

section
variable {E : Type} (loads : List Nat → Option E) (value : E → Int)

def Rec.unknown (r : Rec) : Bool := !r.status.halt.decided
def Rec.halts (r : Rec) : Bool := r.status.halt.decided && r.status.halt.halting
def Rec.infinite (r : Rec) : Bool := r.status.halt.decided && !r.status.halt.halting
def Rec.quasi (r : Rec) : Bool := r.status.quasi.quasihalting

/-- the number of a field, if it has a value other than 0 -/
def bigOf (b : BigInt) : Option Int := ((bigVal loads value b).getD none).filter (· ≠ 0)

/-- which records have a number for a field: those about backtracking and closed graphs only if the filter was successful -/
def Rec.has (r : Rec) (f : Field) : Bool :=
  if f ∈ [Field.btSteps, .btWidth] then r.btSuccess
  else if f ∈ [Field.cgBlock, .cgSteps, .cgConfigs, .cgEdges, .cgIters, .cgLoop] then r.cgSuccess
  else true

/-- the number of a record for a field; only the offset has a sign, which is disregarded -/
def Rec.number (r : Rec) (f : Field) : Nat := if f = .lrOffset then r.offset.natAbs else r.num f

/-- the numbers other than 0 that the records `rs` have for a field -/
def numsOf (rs : List Rec) (f : Field) : List Nat := ((rs.filter (·.has f)).map (·.number f)).filter (· ≠ 0)

/-- the statistics are those of the records -/
structure Stats.Of (s : Stats) (rs : List Rec) : Prop where
  count : s.count = rs.length
  unknown : s.unknown = rs.countP Rec.unknown
  halt : s.halt = rs.countP Rec.halts
  inf : s.inf = rs.countP Rec.infinite
  qhalt : s.qhalt = rs.countP Rec.quasi
  haltSteps : s.haltSteps.Of ((rs.filter Rec.halts).filterMap fun r => bigOf loads value r.status.halt.steps)
  haltScore : s.haltScore.Of ((rs.filter Rec.halts).filterMap fun r => bigOf loads value r.status.halt.score)
  qhaltSteps : s.qhaltSteps.Of ((rs.filter Rec.quasi).filterMap fun r => bigOf loads value r.status.quasi.steps)
  unknownReason : ∀ k, (Py.dget s.unknownReason k).getD 0 = rs.countP fun r => r.unknown && decide (r.reason = k)
  infReason : ∀ k, (Py.dget s.infReason k).getD 0 = rs.countP fun r => r.infinite && decide (r.status.halt.infReason = k)
  unknownSum : (s.unknownReason.map Prod.snd).sum = s.unknown
  infSum : (s.infReason.map Prod.snd).sum = s.inf
  infKeys : ∀ k, k ∈ s.infReason.map Prod.fst ↔ ∃ r ∈ rs, r.infinite = true ∧ r.status.halt.infReason = k
  filtersRun : ∀ k, (Py.dget s.filtersRun k).getD 0 = (rs.map fun r => r.filters.count k).sum
  stat : ∀ f, (s.stat f).Of (numsOf rs f)

/-- the report on these records cannot be printed: none of them has a `log10_num_steps` other than 0, or a reason has no name -/
def Unprintable (rs : List Rec) : Prop :=
  (∀ r ∈ rs, r.num .log10Steps = 0) ∨ ∃ r ∈ rs, r.infinite = true ∧ 8 < r.status.halt.infReason

/-- the record's numbers can be read -/
def Rec.Readable (r : Rec) : Prop :=
  (r.halts = true → (bigVal loads value r.status.halt.steps).isSome = true ∧ (bigVal loads value r.status.halt.score).isSome = true) ∧
  (r.quasi = true → (bigVal loads value r.status.quasi.steps).isSome = true)

end

/-- the records of the files -/
def recsOf {α : Type} (rec : α → Rec) (files : List (List (Item α))) : List Rec := (files.map fun f => (readAll f).1).flatten.map rec

end Model.Analyze
