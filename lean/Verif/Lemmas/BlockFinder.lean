import Verif.Model.BlockFinder
import Verif.Lemmas.Simulator

/-! # Lemmas on the block size search -/

namespace Model.BlockFinder
open Spec Model

variable {σ S : Type} [DecidableEq σ] [DecidableEq S]

/-! ## The statistics -/

theorem Stat.step_sim (M : Machine σ S) (x : Stat σ S) : (x.step M).sim = x.sim.step natOps M := by
  unfold Stat.step
  simp only
  split
  · rfl
  · split <;> rfl

theorem Stat.go_sim (M : Machine σ S) (cutoff k : Nat) (x : Stat σ S) :
    (Stat.loopSeekGo M cutoff k x).sim = SimSt.loopSeekGo natOps M cutoff k x.sim := by
  induction k generalizing x with
  | zero => rfl
  | succ k ih =>
    unfold Stat.loopSeekGo SimSt.loopSeekGo
    split
    · rw [ih, Stat.step_sim]
    · rfl

theorem Stat.run_sim (M : Machine σ S) (cutoff : Nat) :
    (Stat.run M cutoff).sim = (SimSt.init natOps M).loopSeek natOps M cutoff := Stat.go_sim M cutoff cutoff _

theorem Stat.macr_le (M : Machine σ S) (x : Stat σ S) : x.macr ≤ (x.step M).macr := by
  unfold Stat.step
  simp only
  split
  · exact le_rfl
  · split
    · exact le_rfl
    · exact Nat.le_add_right _ _

theorem Stat.go_macr (M : Machine σ S) (cutoff k : Nat) (x : Stat σ S) : x.macr ≤ (Stat.loopSeekGo M cutoff k x).macr := by
  induction k generalizing x with
  | zero => exact le_rfl
  | succ k ih =>
    unfold Stat.loopSeekGo
    split
    · exact le_trans (Stat.macr_le M x) (ih _)
    · exact le_rfl

theorem step_stopped (M : Machine σ S) {s : SimSt σ S Nat} (h : s.op ≠ .running) : s.step natOps M = s := by
  unfold SimSt.step; rw [if_pos h]

theorem go_stopped (M : Machine σ S) (cutoff k : Nat) {s : SimSt σ S Nat} (h : s.op ≠ .running) :
    SimSt.loopSeekGo natOps M cutoff k s = s := by
  cases k with
  | zero => rfl
  | succ k => unfold SimSt.loopSeekGo; rw [if_neg (fun hh => h hh.2)]

/-- A chain move on the blank tape is infinite, so the first running step is counted as a macro step. -/
theorem macr_pos {T : Table} {M : Machine σ S} {Den TDen hs} (F : Follows T M Den TDen hs)
    (hi : Den (initDC M) Spec.init) {cutoff : Nat} (hc : cutoff ≠ 0)
    (hr : (Stat.run M cutoff).sim.op = .running) : (Stat.run M cutoff).macr ≠ 0 := by
  obtain ⟨k, rfl⟩ : ∃ k, cutoff = k + 1 := ⟨cutoff - 1, by omega⟩
  unfold Stat.run at hr ⊢
  unfold Stat.loopSeekGo at hr ⊢
  rw [if_pos ⟨Nat.succ_pos k, rfl⟩] at hr ⊢
  set x0 : Stat σ S := ⟨SimSt.init natOps M, 0, 0⟩ with hx0
  have hrun : ((SimSt.init natOps M).step natOps M).op = .running := by
    by_contra hh
    rw [Stat.go_sim, Stat.step_sim, go_stopped M _ _ hh] at hr
    exact hh hr
  have hprog : 0 < ((SimSt.init natOps M).step natOps M).steps :=
    ((step_ok F (init_ok (T := T) (TDen := TDen) (hs := hs) hi)).2 rfl).2 hrun
  refine Nat.ne_of_gt (lt_of_lt_of_le ?_ (Stat.go_macr M (k + 1) k (x0.step M)))
  unfold Stat.step
  have htop : x0.sim.tape.topSymbol = some M.initSym := by
    simp only [hx0, SimSt.init, ChainTape.init, ChainTape.topSymbol, ChainTape.half]
    cases M.initDir <;> rfl
  simp only [htop]
  split
  · rename_i hch
    exfalso
    have hcm : x0.sim.tape.chainMove natOps (M.trans M.initSym x0.sim.st x0.sim.dir).sym = some (x0.sim.tape, none) := by
      simp only [hx0, SimSt.init, ChainTape.init, ChainTape.chainMove, ChainTape.half]
      cases M.initDir <;> rfl
    have hop : (x0.sim.step natOps M).op = .infRepeat := by
      unfold SimSt.step
      rw [if_neg (by simp [hx0, SimSt.init])]
      unfold SimSt.macroStep
      have htop' : ({ x0.sim with loops := x0.sim.loops + 1 } : SimSt σ S Nat).tape.topSymbol = some M.initSym := htop
      rw [htop']
      simp only
      rw [if_neg (by rw [hch.2.2]; simp), if_neg (by rw [hch.2.2]; simp), if_pos hch, hcm]
    rw [hop] at hrun
    cases hrun
  · show 0 < 0 + ((SimSt.init natOps M).step natOps M).steps - 0
    omega

/-! ## The search for the least compressed tape -/

theorem worstLoop_spec {T : Table} {M : Machine σ S} {Den TDen hs} (F : Follows T M Den TDen hs)
    (hi : Den (initDC M) Spec.init) (i n len worst : Nat) (hrun : ∀ j, j ≤ n → (SimSt.after M j).op = .running)
    (hw : worst ≤ n) (hlen : len = tapeLen (SimSt.after M worst).tape) :
    worstLoop M i (SimSt.after M n) len worst = .stopped ∨
    ∃ w, worstLoop M i (SimSt.after M n) len worst = .worst (tapeLen (SimSt.after M w).tape) w ∧
      ∀ j, j ≤ w → (SimSt.after M j).op = .running := by
  induction i generalizing n len worst with
  | zero =>
    refine Or.inr ⟨worst, by rw [hlen]; rfl, fun j hj => hrun j (by omega)⟩
  | succ i ih =>
    unfold worstLoop
    simp only
    rw [← after_succ]
    rw [if_neg (after_ok F hi (n + 1)).1.safe]
    by_cases hop : (SimSt.after M (n + 1)).op = .running
    · have hl := ((after_ok F hi (n + 1)).2 hop).1
      have hrun' : ∀ j, j ≤ n + 1 → (SimSt.after M j).op = .running := by
        intro j hj
        rcases Nat.lt_or_ge n j with h | h
        · obtain rfl : j = n + 1 := by omega
          exact hop
        · exact hrun j h
      simp only [hop, ne_eq, not_true_eq_false, if_false]
      by_cases hg : tapeLen (SimSt.after M (n + 1)).tape > len
      · simp only [hg, if_true, hl]
        exact ih (n + 1) _ (n + 1) hrun' le_rfl rfl
      · simp only [hg, if_false]
        exact ih (n + 1) _ worst hrun' (by omega) hlen
    · left
      simp [hop]

/-! ## The uncompressed tape -/

omit [DecidableEq σ] in
theorem wf_fin {z : σ} : ∀ {h : List (Blk σ Nat)}, WFHalf z h → ∀ b ∈ h.dropLast, b.num ≠ none
  | [], h => by simp
  | [_], h => by simp
  | ⟨a, none⟩ :: b :: rest, h => absurd h (by simp [WFHalf])
  | ⟨a, some n⟩ :: b :: rest, h => by
    intro c hc
    rw [List.dropLast_cons_cons, List.mem_cons] at hc
    rcases hc with rfl | hc
    · simp
    · exact wf_fin h.2.2 c hc

omit [DecidableEq σ] in
theorem expand_ok : ∀ {l : List (Blk σ Nat)}, (∀ b ∈ l, b.num ≠ none) → ∃ r, expand l = some r
  | [], _ => ⟨[], rfl⟩
  | ⟨a, none⟩ :: l, h => absurd rfl (h ⟨a, none⟩ (by simp))
  | ⟨a, some n⟩ :: l, h => by
    obtain ⟨r, hr⟩ := expand_ok (l := l) (fun b hb => h b (by simp [hb]))
    exact ⟨List.replicate n a ++ r, by simp [expand, hr]⟩

omit [DecidableEq σ] in
theorem uncompress_ok {z : σ} {t : ChainTape σ Nat} (h : t.WF z) : ∃ r, uncompress t = some r := by
  refine expand_ok (fun b hb => ?_)
  rw [List.mem_append, List.mem_reverse] at hb
  rcases hb with hb | hb
  · exact wf_fin (h .L) b hb
  · exact wf_fin (h .R) b hb

/-! ## The best compression -/

theorem efficiency_foldl (tape : List σ) (k : Nat) (l : List Nat) (c : Int) :
    c - k * l.length ≤ l.foldl (fun (size : Int) i =>
      if (tape.drop i).take k = (tape.drop (i + k)).take k then size - k else size) c := by
  induction l generalizing c with
  | nil => simp
  | cons i l ih =>
    rw [List.foldl_cons]
    refine le_trans ?_ (ih _)
    have e : ((k : Int) * ((i :: l).length : Nat)) = k * l.length + k := by
      rw [List.length_cons]; push_cast; ring
    split <;> omega

theorem multiples_length (n k : Nat) (hk : 0 < k) : k * (multiples n k).length ≤ n + k := by
  induction n with
  | zero => simp [multiples]
  | succ n ih =>
    unfold multiples at ih ⊢
    rw [List.range_succ, List.filter_append, List.length_append]
    by_cases h : n % k = 0
    · have h2 : ∀ m, k * ((List.range (k * m)).filter fun i => decide (i % k = 0)).length = k * m := by
        intro m
        induction m with
        | zero => simp
        | succ m ihm =>
          rw [Nat.mul_succ, List.range_add, List.filter_append, List.length_append, Nat.mul_add, ihm]
          congr 1
          obtain ⟨k', rfl⟩ : ∃ k', k = k' + 1 := ⟨k - 1, by omega⟩
          rw [List.filter_map, List.length_map, List.range_succ_eq_map, List.filter_cons]
          have : (((fun i => decide (i % (k' + 1) = 0)) ∘ fun x => (k' + 1) * m + x) 0) = true := by simp
          rw [if_pos this, List.length_cons]
          have h3 : (((List.range k').map Nat.succ).filter
              ((fun i => decide (i % (k' + 1) = 0)) ∘ fun x => (k' + 1) * m + x)) = [] := by
            rw [List.filter_eq_nil_iff]
            intro x hx
            rw [List.mem_map] at hx
            obtain ⟨y, hy, rfl⟩ := hx
            rw [List.mem_range] at hy
            simp only [Function.comp, Nat.mul_add_mod, decide_eq_true_eq]
            rw [Nat.mod_eq_of_lt (by omega)]
            omega
          rw [h3]; simp
      obtain ⟨m, rfl⟩ := Nat.dvd_of_mod_eq_zero h
      have := h2 m
      simp only [List.filter_cons, Nat.mul_mod_right, decide_true, if_true, List.filter_nil, List.length_singleton]
      rw [Nat.mul_add, this]
      omega
    · simp only [List.filter_cons, h, decide_false, List.filter_nil]
      simp only [Bool.false_eq_true, if_false, List.length_nil, Nat.add_zero]
      omega

/-- the estimate never becomes negative -/
theorem efficiency_nonneg (tape : List σ) {k : Nat} (hk : 0 < k) (h : 2 * k ≤ tape.length) : 0 ≤ efficiency tape k := by
  refine le_trans ?_ (efficiency_foldl tape k _ _)
  have := multiples_length (tape.length - 2 * k) k hk
  have h2 : ((k * (multiples (tape.length - 2 * k) k).length : Nat) : Int) ≤ ((tape.length - 2 * k + k : Nat) : Int) := by
    exact_mod_cast this
  push_cast at h2
  omega

/-- What the loop over the block sizes does to `min_compr` and `opt_size`. -/
theorem optLoop_spec (p : Params) (tape : List σ) (m : Nat) (a : Nat) (minC : Int) (opt : Nat) (ha : 1 ≤ a)
    (hmono : ∀ x y, x ≤ y → p.allows y = true → p.allows x = true) :
    let r := optLoop p tape (List.range' a m) minC opt
    (r = (minC, opt) ∧ (∀ b, a ≤ b → b < a + m → p.allows b = true → minC ≤ efficiency tape b)) ∨
    (a ≤ r.2 ∧ r.2 < a + m ∧ p.allows r.2 = true ∧ r.1 = efficiency tape r.2 ∧ r.1 < minC ∧
      (∀ b, a ≤ b → b < a + m → p.allows b = true → r.1 ≤ efficiency tape b ∧ (b < r.2 → r.1 < efficiency tape b))) := by
  induction m generalizing a minC opt with
  | zero =>
    left
    exact ⟨rfl, fun b h1 h2 => by omega⟩
  | succ m ih =>
    simp only
    rw [List.range'_succ]
    unfold optLoop
    by_cases h1 : efficiency tape a < minC
    · rw [if_pos h1]
      by_cases h2 : p.allows a = true
      · rw [if_pos h2]
        have H := ih (a + 1) (efficiency tape a) a (by omega)
        simp only at H
        right
        rcases H with ⟨e, H⟩ | ⟨e1, e2, e3, e4, e5, H⟩
        · rw [e]
          refine ⟨le_rfl, by omega, h2, rfl, h1, fun b hb1 hb2 hb3 => ⟨?_, fun hb => by simp only at hb; omega⟩⟩
          rcases Nat.eq_or_lt_of_le hb1 with rfl | hb
          · exact le_rfl
          · exact H b hb (by omega) hb3
        · refine ⟨by omega, by omega, e3, e4, by omega, fun b hb1 hb2 hb3 => ?_⟩
          rcases Nat.eq_or_lt_of_le hb1 with rfl | hb
          · exact ⟨by omega, fun _ => by omega⟩
          · exact H b hb (by omega) hb3
      · rw [if_neg h2]
        left
        refine ⟨rfl, fun b hb1 hb2 hb3 => absurd (hmono a b hb1 hb3) h2⟩
    · rw [if_neg h1]
      have H := ih (a + 1) minC opt (by omega)
      simp only at H
      rcases H with ⟨e, H⟩ | ⟨e1, e2, e3, e4, e5, H⟩
      · left
        refine ⟨e, fun b hb1 hb2 hb3 => ?_⟩
        rcases Nat.eq_or_lt_of_le hb1 with rfl | hb
        · omega
        · exact H b hb (by omega) hb3
      · right
        refine ⟨by omega, by omega, e3, e4, e5, fun b hb1 hb2 hb3 => ?_⟩
        rcases Nat.eq_or_lt_of_le hb1 with rfl | hb
        · exact ⟨by omega, fun _ => by omega⟩
        · exact H b hb (by omega) hb3

theorem allows_mono (p : Params) (x y : Nat) (h : x ≤ y) (hy : p.allows y = true) : p.allows x = true := by
  unfold Params.allows at *
  simp only [Bool.or_eq_true, decide_eq_true_eq] at *
  omega

theorem allows_one (p : Params) : p.allows 1 = true := by
  unfold Params.allows
  simp only [Bool.or_eq_true, decide_eq_true_eq]
  omega

theorem efficiency_le (tape : List σ) (k : Nat) : efficiency tape k ≤ tape.length := by
  unfold efficiency
  generalize multiples _ _ = l
  have : ∀ c : Int, l.foldl (fun (size : Int) i =>
      if (tape.drop i).take k = (tape.drop (i + k)).take k then size - k else size) c ≤ c := by
    induction l with
    | nil => intro c; exact le_rfl
    | cons i l ih =>
      intro c
      rw [List.foldl_cons]
      refine le_trans (ih _) ?_
      split <;> omega
  exact this _

theorem optSize_spec (p : Params) (tape : List σ) :
    0 ≤ (optSize p tape).1 ∧ 1 ≤ (optSize p tape).2 ∧ p.allows (optSize p tape).2 = true ∧
    (tape.length / 2 ≤ 1 → (optSize p tape).2 = 1) ∧
    (1 < tape.length / 2 → (optSize p tape).2 < tape.length / 2 ∧
      ∀ b, 1 ≤ b → b < tape.length / 2 → p.allows b = true →
        efficiency tape (optSize p tape).2 ≤ efficiency tape b ∧
        (b < (optSize p tape).2 → efficiency tape (optSize p tape).2 < efficiency tape b)) := by
  have hr : (List.range (tape.length / 2)).drop 1 = List.range' 1 (tape.length / 2 - 1) := by
    rw [List.range_eq_range', List.drop_range']
  have H := optLoop_spec p tape (tape.length / 2 - 1) 1 (tape.length + 1) 1 le_rfl (allows_mono p)
  unfold optSize
  rw [hr]
  simp only at H
  generalize optLoop p tape (List.range' 1 (tape.length / 2 - 1)) (tape.length + 1) 1 = r at H ⊢
  rcases H with ⟨rfl, H⟩ | ⟨h1, h2, h3, h4, h5, H⟩
  · refine ⟨by simp only; omega, le_rfl, allows_one p, fun _ => rfl, fun h => ?_⟩
    have := H 1 le_rfl (by omega) (allows_one p)
    have := efficiency_le tape 1
    omega
  · refine ⟨?_, h1, h3, fun h => by omega, fun h => ⟨by omega, fun b hb1 hb2 hb3 => ?_⟩⟩
    · rw [h4]; exact efficiency_nonneg tape (by omega) (by omega)
    · rw [← h4]
      exact H b hb1 (by omega) hb3

end Model.BlockFinder
