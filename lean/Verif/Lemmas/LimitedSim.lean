import Verif.Lemmas.LimitedApply

/-! # The simulator with limited rules -/

namespace Model.Prover
open Spec Model Model.Expr
variable {σ S : Type} [DecidableEq σ] [DecidableEq S]

/-- a result of the proof system is right for the base machine at `cfg` -/
def LResOK (T : Table) (M : Machine σ S) (Den : DC σ S → Config → Prop) (z : σ) (o : Opts) (st : S) (u : ChainTape σ Nat)
    (cfg : Config) : Out (Res σ) → Prop
  | .raise => o.maxReps = 0 ∨ ∀ ok okS, Stays M ok okS → ok st → ¬ u.All okS (fun _ => True)
  | .fail => True
  | .ok (.inf states) => NeverHalts T cfg ∧ ∀ q, VisitedForever T cfg q ↔ q ∈ states
  | .ok (.apply tape n seen) => tape.WF z ∧ tape.dir = u.dir ∧ 0 < n ∧ Den (tapeDC z tape st) (run T n cfg) ∧
      SeenExact T cfg n seen ∧ ∀ ok okS, Stays M ok okS → ok st → u.All okS (fun _ => True) → tape.All okS (fun _ => True)

theorem steps_all {M : Machine σ S} {ok : S → Prop} {okS : σ → Prop} (hM : Stays M ok okS) : ∀ (k : Nat) {s : SimSt σ S Nat},
    s.tape.All okS (fun _ => True) → ok s.st → ((SimSt.step natOps M)^[k] s).op = .running →
    ((SimSt.step natOps M)^[k] s).tape.All okS (fun _ => True) ∧ ok ((SimSt.step natOps M)^[k] s).st
  | 0, s, h1, h2, _ => ⟨h1, h2⟩
  | k + 1, s, h1, h2, hr => by
    rw [Function.iterate_succ_apply'] at hr ⊢
    have hop : ((SimSt.step natOps M)^[k] s).op = .running := by
      by_contra hh
      have e : SimSt.step natOps M ((SimSt.step natOps M)^[k] s) = (SimSt.step natOps M)^[k] s := if_pos hh
      rw [e] at hr
      exact hh hr
    obtain ⟨h3, h4⟩ := steps_all hM k h1 h2 hop
    exact step_all hM ⟨fun _ _ _ _ => trivial, fun _ _ => trivial, trivial⟩ h3 h4 hr

theorem applyGen_res {T : Table} {M : Machine σ S} {Den TDen hs} (F : Follows T M Den TDen hs) {z : σ} {u : ChainTape σ Nat} {st : S}
    {r : GenRule} (h : RuleOK M z (strip natIsOne st u) (.gen r)) (hw : u.WF z) {cfg : Config} (hm : Den (tapeDC z u st) cfg)
    (o : Opts) : LResOK T M Den z o st u cfg (applyGen o r u) := by
  have h1 : ResOK M o (fresh u st) (applyGen o r u) := applyRule_ok (s := fresh u st) h rfl rfl hw o 0
  generalize applyGen o r u = res at h1
  match res, h1 with
  | .raise, h1 => exact h1
  | .fail, _ => trivial
  | .ok (.inf states), h1 =>
    have := loops_forever F (fresh_ok hw hm) h1
    exact ⟨this.1, fun q => (this.2 q).1⟩
  | .ok (.apply tape n seen), h1 =>
    obtain ⟨hk, k, hk1, hL⟩ := h1
    obtain ⟨k1, k2, k3, k4⟩ := lands_base F hw hm hk1 hL
    refine ⟨k1, ?_, by omega, k3, ⟨hk, k4⟩, fun ok okS hM h1 h2 => ?_⟩
    · rw [← hL.tape, ← steps_dir M k (s := fresh u st) rfl, hL.dir]; rfl
    · rw [← hL.tape]
      exact (steps_all hM k (s := fresh u st) h2 h1 hL.op).1

theorem all_syms {okS : σ → Prop} {t u : ChainTape σ Nat} (h : ∀ e, (t.half e).map (·.sym) = (u.half e).map (·.sym))
    (hu : u.All okS (fun _ => True)) : t.All okS (fun _ => True) := by
  intro d b hb
  refine ⟨?_, fun _ _ => trivial⟩
  have : b.sym ∈ (t.half d).map (·.sym) := List.mem_map.2 ⟨b, hb, rfl⟩
  rw [h d] at this
  obtain ⟨b', hb', e⟩ := List.mem_map.1 this
  rw [← e]; exact (hu d b' hb').1

theorem applyLim_res {T : Table} {M : Machine σ S} {Den TDen hs} (F : Follows T M Den TDen hs) {z : σ} {key : Strip σ S}
    {r : LimRule σ} (h : LRuleOK T Den z key r) {u : ChainTape σ Nat} {st : S} (hf : Fits key (strip natIsOne st u) r.dist)
    (hw : u.WF z) {cfg : Config} (hm : Den (tapeDC z u st) cfg) (o : Opts) (k : Nat) :
    LResOK T M Den z o st u cfg (applyLim r u k) := by
  have h1 := applyLim_ok F h hf hw hm k
  generalize applyLim r u k = res at h1
  match res, h1 with
  | .raise, h1 => exact h1.elim
  | .fail, _ => trivial
  | .ok (.inf states), h1 => exact h1
  | .ok (.apply tape n seen), ⟨h1, h2, h3, h4, h5, h6, _⟩ => exact ⟨h1, h2, h3, h4, h5, fun ok okS hM h7 h8 => all_syms h6 h8⟩

theorem tryRules_res {T : Table} {M : Machine σ S} {Den TDen hs} (F : Follows T M Den TDen hs) {z : σ} {u : ChainTape σ Nat} {st : S}
    (hw : u.WF z) {cfg : Config} (hm : Den (tapeDC z u st) cfg) (o : Opts) : ∀ (rs : List (LimRule σ)) (nv : Nat),
    (∀ r ∈ rs, ∃ key, LRuleOK T Den z key r ∧ Fits key (strip natIsOne st u) r.dist) →
    LResOK T M Den z o st u cfg (tryRules u rs nv).1
  | [], nv, _ => trivial
  | r :: rs, nv, h => by
    obtain ⟨key, h1, h2⟩ := h r (by simp)
    have h3 := applyLim_res F h1 h2 hw hm o nv
    have ih := tryRules_res F hw hm o rs (nv + 1) (fun r hr => h r (by simp [hr]))
    unfold tryRules
    match ha : applyLim r u nv with
    | .raise => rw [ha] at h3; exact h3
    | .fail => exact ih
    | .ok res => rw [ha] at h3; exact h3

/-- what is known of the proof system before loop `loop`; `K` gives the stripped configuration a rule was proved for -/
structure LProverOK (T : Table) (Den : DC σ S → Config → Prop) (z : σ) (K : Nat → Strip σ S) (p : LProver σ S) (loop : Nat) :
    Prop where
  rules : ∀ lk rs, Py.dget p.rules lk = some rs → ∀ r ∈ rs, r.num < p.num ∧ LRuleOK T Den z (K r.num) r ∧
    lk = ruleKey (K r.num) lk.side (r.dist.get lk.side)
  past : ∀ key a l, Py.dget p.past key = some a → a.lastLoop = some l → l < loop

theorem candidates_ok {T : Table} {Den : DC σ S → Config → Prop} {z : σ} {K : Nat → Strip σ S} {p : LProver σ S} {loop : Nat}
    (h : LProverOK T Den z K p loop) {k : Strip σ S} {d : Dir} {r : LimRule σ} (hr : r ∈ candidates p.rules k d) :
    LRuleOK T Den z (K r.num) r ∧ k.st = (K r.num).st ∧ k.dir = (K r.num).dir ∧
      takeL (r.dist.get d) (padded k d) = takeL (r.dist.get d) (padded (K r.num) d) := by
  unfold candidates at hr
  obtain ⟨lk, h1, h2⟩ := List.mem_flatMap.1 hr
  unfold lookupKeys at h1
  obtain ⟨i, -, rfl⟩ := List.mem_map.1 h1
  cases hd : Py.dget p.rules ⟨d, k.st, k.dir, (padded k d).take (i + 1), i + 1⟩ with
  | none => rw [hd] at h2; simp at h2
  | some rs =>
    rw [hd] at h2
    obtain ⟨-, h3, h4⟩ := h.rules _ rs hd r h2
    simp only [ruleKey, LKey.mk.injEq, true_and] at h4
    obtain ⟨e1, e2, e3, e4⟩ := h4
    refine ⟨h3, e1, e2, ?_⟩
    rw [← e3, ← e4]
    simp [takeL]

theorem addUnder_ok {T : Table} {Den : DC σ S → Config → Prop} {z : σ} {K : Nat → Strip σ S} {rules : LRules σ S} {N : Nat}
    (h : ∀ lk rs, Py.dget rules lk = some rs → ∀ r ∈ rs, r.num < N ∧ LRuleOK T Den z (K r.num) r ∧
      lk = ruleKey (K r.num) lk.side (r.dist.get lk.side))
    {r : LimRule σ} (h1 : r.num < N) (h2 : LRuleOK T Den z (K r.num) r) (d : Dir) :
    ∀ lk rs, Py.dget (addUnder rules (ruleKey (K r.num) d (r.dist.get d)) r) lk = some rs → ∀ r ∈ rs, r.num < N ∧
      LRuleOK T Den z (K r.num) r ∧ lk = ruleKey (K r.num) lk.side (r.dist.get lk.side) := by
  intro lk rs hd r' hr'
  unfold addUnder at hd
  rw [Py.dget_dset] at hd
  by_cases hk : lk = ruleKey (K r.num) d (r.dist.get d)
  · rw [if_pos hk] at hd
    cases hd
    rcases List.mem_append.1 hr' with hr' | hr'
    · cases hg : Py.dget rules (ruleKey (K r.num) d (r.dist.get d)) with
      | none => rw [hg] at hr'; simp at hr'
      | some rs => rw [hg] at hr'; rw [hk]; exact h _ rs hg r' hr'
    · have : r' = r := by simpa using hr'
      subst this
      exact ⟨h1, h2, by rw [hk]; rfl⟩
  · rw [if_neg hk] at hd
    exact h lk rs hd r' hr'

theorem logAndApplyL_ok {T : Table} {M : Machine σ S} {Den TDen hs} (F : Follows T M Den TDen hs) {z : σ} {K : Nat → Strip σ S}
    {p : LProver σ S} {loop : Nat} (hp : LProverOK T Den z K p loop) {u : ChainTape σ Nat} {st : S} (hw : u.WF z) {cfg : Config}
    (hm : Den (tapeDC z u st) cfg) (o : Opts) (ord : Order σ) (hord : ∀ n l, (ord n l).Perm l) :
    (∃ K', LProverOK T Den z K' (logAndApplyL M o ord p st u loop).1 (loop + 1)) ∧
    LResOK T M Den z o st u cfg (logAndApplyL M o ord p st u loop).2 := by
  have hmono : ∀ key a l, Py.dget p.past key = some a → a.lastLoop = some l → l < loop + 1 :=
    fun key a l h1 h2 => Nat.lt_succ_of_lt (hp.past key a l h1 h2)
  unfold logAndApplyL
  simp only
  generalize hkey : strip natIsOne st u = key
  have htry := tryRules_res F hw hm o
    (ord loop ((candidates p.rules key .L).filter (· ∈ candidates p.rules key .R))) p.nv (by
      intro r hr
      have hr := (hord _ _).mem_iff.1 hr
      rw [List.mem_filter] at hr
      obtain ⟨h1, h2⟩ := hr
      obtain ⟨a1, a2, a3, a4⟩ := candidates_ok hp h1
      obtain ⟨-, -, -, b4⟩ := candidates_ok hp (d := .R) (by simpa using h2)
      rw [hkey]
      exact ⟨K r.num, a1, a2, a3, fun d => by cases d; exacts [a4, b4]⟩)
  match ht : tryRules u (ord loop ((candidates p.rules key .L).filter (· ∈ candidates p.rules key .R))) p.nv with
  | (.raise, nv) => rw [ht] at htry; exact ⟨⟨K, hp.rules, hmono⟩, htry⟩
  | (.ok res, nv) => rw [ht] at htry; exact ⟨⟨K, hp.rules, fun key a l h1 => by cases h1⟩, htry⟩
  | (.fail, nv) =>
    simp only
    unfold logAndProveL
    simp only
    generalize hpast : (Py.dget p.past key).getD ⟨none, none⟩ = past
    have hlast : ∀ l, past.lastLoop = some l → l < loop := by
      intro l hl
      cases hd : Py.dget p.past key with
      | none => rw [hd] at hpast; subst hpast; cases hl
      | some a => rw [hd] at hpast; subst hpast; exact hp.past key _ l hd hl
    have hlog : (∀ l, (past.log loop).1.lastLoop = some l → l ≤ loop) ∧
        ((past.log loop).2 = true → ∃ l, (past.log loop).1.lastLoop = some l ∧ l < loop) := by
      unfold Past.log
      cases h1 : past.lastLoop with
      | none => exact ⟨fun l h => by simp at h; omega, fun h => by cases h⟩
      | some last =>
        simp only
        cases h2 : past.lastDelta with
        | none => exact ⟨fun l h => by simp at h; omega, fun h => by cases h⟩
        | some d =>
          simp only
          by_cases h3 : d = 0 ∨ d ≠ (loop : Int) - last
          · rw [if_pos h3]; exact ⟨fun l h => by simp at h; omega, fun h => by cases h⟩
          · rw [if_neg h3]
            exact ⟨fun l h => by have := hlast l h; omega, fun _ => ⟨last, h1, hlast _ h1⟩⟩
    generalize past.log loop = pt at hlog
    obtain ⟨past', try'⟩ := pt
    simp only at hlog ⊢
    have hset : ∀ k a l, Py.dget (Py.dset p.past key past') k = some a → a.lastLoop = some l → l < loop + 1 := by
      intro k a l h1 h2
      rw [Py.dget_dset] at h1
      by_cases hk : k = key
      · rw [if_pos hk] at h1; cases h1; exact Nat.lt_succ_of_le (hlog.1 l h2)
      · rw [if_neg hk] at h1; exact hmono k a l h1 h2
    have hone : ∀ k a l, Py.dget [(key, { past' with lastLoop := none })] k = some a → a.lastLoop = some l → l < loop + 1 := by
      intro k a l h1 h2
      by_cases hk : key = k
      · simp [Py.dget, hk] at h1; subst h1; cases h2
      · have hk' : (key == k) = false := by simpa using hk
        simp [Py.dget, hk'] at h1
    by_cases htr : try' = true
    · rw [if_pos htr]
      obtain ⟨l, hl, hlt⟩ := hlog.2 htr
      have hpr := proveRuleL_ok F st u ((loop : Int) - past'.lastLoop.getD 0) p.num nv hw (by
        rw [hl]; simp only [Option.getD_some]; omega)
      have hnum := proveRuleL_erase M key st u ((loop : Int) - past'.lastLoop.getD 0) p.num nv
      rw [hkey] at hpr
      generalize proveRuleL M key st u ((loop : Int) - past'.lastLoop.getD 0) p.num nv = pv at hpr hnum
      obtain ⟨out, nv'⟩ := pv
      match out, hpr, hnum with
      | .raise, hpr, _ => exact ⟨⟨K, hp.rules, hset⟩, Or.inr hpr⟩
      | .fail, hpr, _ => exact ⟨⟨K, hp.rules, hset⟩, trivial⟩
      | .ok (.gen r), hpr, _ =>
        refine ⟨⟨K, fun lk rs h1 r' hr' => ?_, hone⟩, ?_⟩
        · obtain ⟨a1, a2, a3⟩ := hp.rules lk rs h1 r' hr'
          exact ⟨Nat.lt_succ_of_lt a1, a2, a3⟩
        · exact applyGen_res F (by rw [hkey]; exact hpr) hw hm o
      | .ok (.lim r), hpr, hnum =>
        obtain ⟨-, -, -, hn, -⟩ := hnum
        refine ⟨⟨fun n => if n = p.num then key else K n, ?_, hone⟩, ?_⟩
        · have hK : (fun n => if n = p.num then key else K n) r.num = key := by simp [hn]
          have h1 : r.num < p.num + 1 := by omega
          have h2 : LRuleOK T Den z ((fun n => if n = p.num then key else K n) r.num) r := by rw [hK]; exact hpr
          have h0 : ∀ lk rs, Py.dget p.rules lk = some rs → ∀ r ∈ rs, r.num < p.num + 1 ∧
              LRuleOK T Den z ((fun n => if n = p.num then key else K n) r.num) r ∧
              lk = ruleKey ((fun n => if n = p.num then key else K n) r.num) lk.side (r.dist.get lk.side) := by
            intro lk rs hd r' hr'
            obtain ⟨a1, a2, a3⟩ := hp.rules lk rs hd r' hr'
            have e : (fun n => if n = p.num then key else K n) r'.num = K r'.num := by
              simp only
              rw [if_neg (by omega)]
            rw [e]
            exact ⟨Nat.lt_succ_of_lt a1, a2, a3⟩
          have := addUnder_ok (K := fun n => if n = p.num then key else K n)
            (addUnder_ok (K := fun n => if n = p.num then key else K n) h0 h1 h2 .L) h1 h2 .R
          simp only at this hK
          rw [hK] at this
          exact this
        · exact applyLim_res F hpr (by rw [hkey]; exact ⟨rfl, rfl, fun _ => rfl⟩) hw hm o nv'
    · rw [if_neg htr]
      by_cases hlen : (Py.dset p.past key past').length > o.maxConfigs
      · rw [if_pos hlen]; exact ⟨⟨K, hp.rules, fun key a l h1 => by cases h1⟩, trivial⟩
      · rw [if_neg hlen]; exact ⟨⟨K, hp.rules, hset⟩, trivial⟩

/-! ## The whole simulation -/

theorem macroStep_reason (M : Machine σ S) {s : SimSt σ S Nat} (h : s.infReason ≠ some .proofSystem) :
    (s.macroStep natOps M).infReason ≠ some .proofSystem := by
  unfold SimSt.macroStep
  simp only
  cases htop : s.tape.topSymbol with
  | none => exact h
  | some cur =>
    simp only
    generalize M.trans cur s.st s.dir = t
    by_cases c1 : t.cond = .raised
    · rw [if_pos c1]; exact h
    rw [if_neg c1]
    by_cases c2 : t.cond = .infRepeat
    · rw [if_pos c2]; simp
    rw [if_neg c2]
    by_cases c3 : t.st = s.st ∧ t.dir = s.dir ∧ t.cond = .running
    · rw [if_pos c3]
      match s.tape.chainMove natOps t.sym with
      | none => exact h
      | some (tp, none) => simp
      | some (tp, some reps) => exact h
    rw [if_neg c3]
    by_cases c4 : t.cond ≠ .gaveUp
    · rw [if_pos c4]
      match s.tape.singleMove natOps t.sym t.dir with
      | none => exact h
      | some tp => exact h
    · rw [if_neg c4]; exact h

/-- what is known while the simulator is running -/
structure LRunning (T : Table) (M : Machine σ S) (Den : DC σ S → Config → Prop) (n : Nat) (p : LSim σ S) : Prop where
  loops : p.sim.loops = n
  steps : n ≤ p.sim.steps
  prover : ∃ K, LProverOK T Den M.initSym K p.prover n
  stays : ∀ ok okS, Stays M ok okS → ok M.initSt → okS M.initSym → p.sim.tape.All okS (fun _ => True) ∧ ok p.sim.st

/-- the proof system has stopped the simulator -/
structure LProof (T : Table) (s : SimSt σ S Nat) : Prop where
  op : s.op = .infRepeat
  reason : s.infReason = some .proofSystem
  dir : s.dir = s.tape.dir
  seen : SeenExact T init s.steps s.seen
  never : NeverHalts T init
  recur : ∀ q, VisitedForever T init q ↔ q ∈ s.recur

/-- what is known of the simulator with limited rules after `n` loops -/
structure LInv (T : Table) (M : Machine σ S) (Den : DC σ S → Config → Prop) (TDen : DC σ S → (Int → Nat) → Prop) (hs : S → Prop)
    (o : Opts) (n : Nat) (p : LSim σ S) : Prop where
  seenOk : p.seenOk = true
  run : p.sim.op = .running → LRunning T M Den n p
  main : (SimOK T M Den TDen hs M.initSym init p.sim ∧ p.sim.infReason ≠ some .proofSystem) ∨ LProof T p.sim ∨
    (p.sim.op = .raised ∧ (o.maxReps = 0 ∨ ∀ ok okS, Stays M ok okS → ok M.initSt → okS M.initSym → False))

theorem forever_run {T : Table} {cfg : Config} {n q : Nat} : VisitedForever T (run T n cfg) q ↔ VisitedForever T cfg q := by
  constructor
  · intro h t
    obtain ⟨u, h1, h2⟩ := h t
    exact ⟨n + u, by omega, visitedAt_add.1 h2⟩
  · intro h t
    obtain ⟨u, h1, h2⟩ := h (n + t)
    obtain ⟨k, rfl⟩ : ∃ k, u = n + k := ⟨u - n, by omega⟩
    exact ⟨k, by omega, visitedAt_add.2 h2⟩

theorem linv_step {T : Table} {M : Machine σ S} {Den TDen hs} (F : Follows T M Den TDen hs) {o : Opts} {ord : Order σ}
    (hord : ∀ n l, (ord n l).Perm l) {n : Nat} {p : LSim σ S} (h : LInv T M Den TDen hs o n p) :
    LInv T M Den TDen hs o (n + 1) (p.step M o ord) := by
  by_cases hop : p.sim.op ≠ .running
  · have : p.step M o ord = p := by unfold LSim.step; rw [if_pos hop]
    rw [this]
    exact ⟨h.seenOk, fun hr => absurd hr hop, h.main⟩
  unfold LSim.step
  rw [if_neg hop]
  push Not at hop
  obtain ⟨hloops, hsteps, ⟨K, hpr⟩, hstays⟩ := h.run hop
  obtain ⟨hok, hre⟩ : SimOK T M Den TDen hs M.initSym init p.sim ∧ p.sim.infReason ≠ some .proofSystem := by
    rcases h.main with h1 | h1 | h1
    · exact h1
    · have := h1.op; rw [hop] at this; cases this
    · have := h1.1; rw [hop] at this; cases this
  have hden : Den (tapeDC M.initSym p.sim.tape p.sim.st) (run T p.sim.steps init) := hok.run (Or.inl hop)
  have hla := logAndApplyL_ok F hpr hok.wf hden o ord hord
  simp only
  rw [hloops]
  generalize logAndApplyL M o ord p.prover p.sim.st p.sim.tape n = la at hla
  obtain ⟨pr, out⟩ := la
  obtain ⟨hpr', hres⟩ := hla
  have hok' : SimOK T M Den TDen hs M.initSym init { p.sim with loops := n + 1 } :=
    ⟨hok.dir, hok.wf, hok.safe, hok.seen, hok.run, hok.halt, hok.inf⟩
  match out, hres with
  | .raise, hres =>
    refine ⟨h.seenOk, fun hr => (by cases hr), Or.inr (Or.inr ⟨rfl, ?_⟩)⟩
    rcases hres with hm | hst
    · exact Or.inl hm
    · exact Or.inr (fun ok okS hM h1 h2 => hst ok okS hM (hstays ok okS hM h1 h2).2 (hstays ok okS hM h1 h2).1)
  | .fail, hres =>
    obtain ⟨h1, h2, h3⟩ := macroStep_ok F hok' hop
    refine ⟨h.seenOk, fun hr => ⟨h3, ?_, hpr', fun ok okS hM k1 k2 => ?_⟩, Or.inl ⟨h1, macroStep_reason M hre⟩⟩
    · have := h2 hr
      simp only at this ⊢
      omega
    · have e : ({ p.sim with loops := n + 1 } : SimSt σ S Nat).macroStep natOps M = p.sim.step natOps M := by
        unfold SimSt.step; rw [if_neg (by simp [hop]), hloops]
      obtain ⟨a1, a2⟩ := hstays ok okS hM k1 k2
      have hr' : (p.sim.step natOps M).op = .running := by rw [← e]; exact hr
      have := step_all hM ⟨fun _ _ _ _ => trivial, fun _ _ => trivial, trivial⟩ a1 a2 hr'
      rw [← e] at this
      exact this
  | .ok (.inf states), ⟨h1, h2⟩ =>
    refine ⟨h.seenOk, fun hr => (by cases hr), Or.inr (Or.inl ⟨rfl, rfl, hok.dir, hok.seen, fun m => ?_, fun q => ?_⟩)⟩
    · have := h1 m
      rw [← run_add] at this
      exact run_some_mono (by omega) this
    · rw [← forever_run (n := p.sim.steps)]; exact h2 q
  | .ok (.apply tape m seen), ⟨h1, h2, h3, h4, h5, h6⟩ =>
    have hne : seen ≠ [] := by
      rintro rfl
      obtain ⟨q, hq⟩ := Option.ne_none_iff_exists'.1 (F.live _ _ hden).1
      obtain ⟨t, ht⟩ := lastSeen_exists (n := m) h3 (show VisitedAt T (run T p.sim.steps init) q 0 from hq)
      have := (h5.2 q t).2 ht
      simp [Py.dget] at this
    refine ⟨?_, fun hr => ⟨rfl, ?_, hpr', fun ok okS hM k1 k2 => ?_⟩, Or.inl ⟨⟨?_, h1, hok.safe, ?_, fun _ => ?_, ?_, ?_⟩, hre⟩⟩
    · simp [h.seenOk, hne]
    · simp only
      omega
    · obtain ⟨a1, a2⟩ := hstays ok okS hM k1 k2
      exact ⟨h6 ok okS hM a2 a1, a2⟩
    · show p.sim.dir = tape.dir
      rw [h2]; exact hok.dir
    · show SeenExact T init (p.sim.steps + m) (SimSt.addSeen natOps p.sim.seen p.sim.steps seen)
      rw [addSeen_nat]; exact seenExact_merge hok.seen h5
    · show Den (tapeDC M.initSym tape p.sim.st) (run T (p.sim.steps + m) init)
      rw [run_add]; exact h4
    · intro hh
      have hh : p.sim.op = .halt ∨ p.sim.op = .undefined := hh
      rw [hop] at hh; rcases hh with hh | hh <;> cases hh
    · intro hh
      have hh : p.sim.op = .infRepeat := hh
      rw [hop] at hh; cases hh

theorem linv_after {T : Table} {M : Machine σ S} {Den TDen hs} (F : Follows T M Den TDen hs) (hi : Den (initDC M) init) (o : Opts)
    {ord : Order σ} (hord : ∀ n l, (ord n l).Perm l) (n : Nat) : LInv T M Den TDen hs o n (lafter M o ord n) := by
  induction n with
  | zero =>
    refine ⟨rfl, fun _ => ⟨rfl, Nat.zero_le _, ⟨fun _ => ⟨M.initSt, .L, [], []⟩, ⟨fun _ _ h => (by cases h), fun _ _ _ h => (by cases h)⟩⟩,
      fun ok okS hM k1 k2 => ⟨fun d b hb => ?_, k1⟩⟩, Or.inl ⟨?_, by simp [lafter, LSim.init, SimSt.init]⟩⟩
    · have : b = ⟨M.initSym, none⟩ := by
        cases d <;> simpa [lafter, LSim.init, SimSt.init, ChainTape.init, ChainTape.half] using hb
      subst this
      exact ⟨k2, fun v hv => trivial⟩
    · exact (after_ok F hi 0).1
  | succ n ih =>
    unfold lafter at ih ⊢
    rw [Function.iterate_succ_apply']
    exact linv_step F hord ih

/-! ## Statements for the reader -/

omit [DecidableEq σ] [DecidableEq S] in
theorem pad_kinds {z : σ} : ∀ (n : Nat) {u v : List (Blk σ Nat)}, WFHalf z u → WFHalf z v →
    List.Forall₂ SameKind (u.take n) (v.take n) → (padOf (info natIsOne) u).take n = (padOf (info natIsOne) v).take n
  | 0, _, _, _, _, _ => rfl
  | n + 1, [], _, hu, _, _ => hu.elim
  | n + 1, _ :: _, [], _, hv, _ => hv.elim
  | n + 1, ⟨a, x⟩ :: u, ⟨b, y⟩ :: v, hu, hv, h => by
    rw [List.take_succ_cons, List.take_succ_cons] at h
    cases h with
    | cons h1 h2 =>
      obtain ⟨e1, e2, e3⟩ := h1
      simp only at e1 e2 e3
      subst e1
      cases x with
      | none =>
        have := e3.1 rfl
        subst this
        obtain ⟨-, rfl⟩ := wfHalf_inf hu
        obtain ⟨-, rfl⟩ := wfHalf_inf hv
        rfl
      | some x =>
        cases y with
        | none => exact absurd (e3.2 rfl) (by simp)
        | some y =>
          have hu' := (wfHalf_cons.1 hu).2.2
          have hv' := (wfHalf_cons.1 hv).2.2
          rw [padOf_cons _ _ (wfHalf_ne hu'), padOf_cons _ _ (wfHalf_ne hv'), List.take_succ_cons, List.take_succ_cons,
            pad_kinds n hu' hv' h2]
          congr 2
          simp only [Option.some.injEq] at e2
          rcases info_nat (a := a) (n := x) with ⟨h3, e⟩ | ⟨h3, e⟩ <;> rcases info_nat (a := a) (n := y) with ⟨h4, e'⟩ | ⟨h4, e'⟩ <;>
            rw [e, e']
          · exact absurd (e2.1 h3) h4
          · exact absurd (e2.2 h4) h3

theorem fits_of {z : σ} {st : S} {dist : Sides Nat} {u tape : ChainTape σ Nat} (hu : u.WF z) (ht : tape.WF z)
    (h : SameKinds (cut dist u) (cut dist tape)) : Fits (strip natIsOne st tape) (strip natIsOne st u) dist := by
  refine ⟨rfl, h.1, fun d => ?_⟩
  have h2 := h.2 d
  rw [half_cut, half_cut] at h2
  have key : takeL (dist.get d) (padOf (info natIsOne) (u.half d)) = takeL (dist.get d) (padOf (info natIsOne) (tape.half d)) := by
    by_cases h0 : dist.get d = 0
    · rw [h0] at h2 ⊢
      simp only [takeL, if_true] at h2 ⊢
      have := pad_kinds ((u.half d).length + (tape.half d).length) (hu d) (ht d) (by
        rw [List.take_of_length_le (by omega), List.take_of_length_le (by omega)]; exact h2)
      rwa [List.take_of_length_le, List.take_of_length_le] at this
      · have := List.length_pos_iff.2 (wfHalf_ne (ht d))
        simp only [padOf, List.length_append, List.length_map, List.length_dropLast, List.length_cons, List.length_nil]
        omega
      · have := List.length_pos_iff.2 (wfHalf_ne (hu d))
        simp only [padOf, List.length_append, List.length_map, List.length_dropLast, List.length_cons, List.length_nil]
        omega
    · simp only [takeL, if_neg h0] at h2 ⊢
      exact pad_kinds _ (hu d) (ht d) h2
  cases d <;> exact key

theorem lim_covers {T : Table} {Den : DC σ S → Config → Prop} {z : σ} {key : Strip σ S} {r : LimRule σ} (h : LRuleOK T Den z key r)
    {u : ChainTape σ Nat} {st : S} (hf : Fits key (strip natIsOne st u) r.dist) (hw : u.WF z)
    (ha : AtLeast r.rule.init (cut r.dist u)) : DiffCovers r.rule (cut r.dist u) := by
  obtain ⟨g, d, ll, lr, hL, hR, hnd, hkey, hinit, hdiff⟩ := h.full
  have hdir : u.dir = g.dir := by
    have := hf.dir
    rw [hkey] at this; exact this
  have hs : ∀ e, takeL (r.dist.get e) (padOf (info natIsOne) (u.half e)) = takeL (r.dist.get e) (padOf (info valIsOne) (g.half e)) := by
    intro e
    have := hf.side e
    rw [hkey] at this
    cases e <;> exact this
  obtain ⟨l1, m1, s1⟩ := match_takeL hL _ (hw .L) (hs .L)
  obtain ⟨l2, m2, s2⟩ := match_takeL hR _ (hw .R) (hs .R)
  replace m1 : MHalf z r.rule.init.left r.rule.diff.left (cut r.dist u).left l1 := by rw [hinit, hdiff]; exact m1
  replace m2 : MHalf z r.rule.init.right r.rule.diff.right (cut r.dist u).right l2 := by rw [hinit, hdiff]; exact m2
  have hnd' : ((l1 ++ l2).map (·.1)).Nodup := by
    rw [List.map_append] at hnd ⊢
    exact List.Nodup.sublist (s1.append s2) hnd
  let vals : List (Nat × Int) := (l1 ++ l2).map (fun e => (e.1, (e.2.2.2 : Int) - e.2.1))
  have hnv : Py.NodupKeys vals := by
    unfold Py.NodupKeys
    simp only [vals]
    rw [List.map_map]; exact hnd'
  let y : Nat → Int := fun x => (Py.dget vals x).getD 0
  have hy : ∀ e ∈ l1 ++ l2, y e.1 = (e.2.2.2 : Int) - e.2.1 := by
    intro e he
    have : Py.dget vals e.1 = some ((e.2.2.2 : Int) - e.2.1) :=
      (Py.mem_iff_dget hnv _ _).1 (List.mem_map.2 ⟨e, he, rfl⟩)
    simp only [y, this, Option.getD_some]
  obtain ⟨a1, b1⟩ := mhalf_inst m1 (fun e he => hy e (by simp [he])) (ha .L)
  obtain ⟨a2, b2⟩ := mhalf_inst m2 (fun e he => hy e (by simp [he])) (ha .R)
  refine ⟨y, fun x => ?_, by rw [hinit]; exact hdir.symm, a1, a2⟩
  cases hd : Py.dget vals x with
  | none => simp [y, hd]
  | some v =>
    obtain ⟨e, he, heq⟩ := List.mem_map.1 ((Py.mem_iff_dget hnv _ _).2 hd)
    cases heq
    rcases List.mem_append.1 he with he | he
    · exact b1 e he
    · exact b2 e he

end Model.Prover
