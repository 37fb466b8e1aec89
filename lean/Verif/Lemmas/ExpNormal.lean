import Verif.Lemmas.ExpCompare
import Verif.Spec.ExpNormal
import Verif.Lemmas.Status
import Verif.Props.Math
import Verif.Props.Status

/-!
# Lemmas on the normal form of exponential integers
-/

namespace Model.ExpInt
open Spec

theorem allNF_iff {F : Floats} {ts : List ETerm} : AllNF F ts ↔ ∀ t ∈ ts, TermNF F t := by
  induction ts with
  | nil => simp [AllNF]
  | cons t ts ih => simp [AllNF, ih]

theorem allNF_exponent {F : Floats} {t : ETerm} (h : TermNF F t) : NF F t.exponent := by
  cases t with
  | mk b c e => simp only [TermNF] at h; exact h.2.2.2.1

theorem nf_terms {F : Floats} {ts : List ETerm} {c d : Int} (h : NF F (.exp ts c d)) : AllNF F ts := by
  simp only [NF] at h; exact h.2.2.2.2.2

theorem pullOut_nf {F : Floats} {incr : Num → Except Err Num} {base : Int} (hb : 2 ≤ base)
    (hi : ∀ e e', NF F e → incr e = .ok e' → NF F e') :
    ∀ (fuel : Nat) (c : Int) (e : Num) (c' : Int) (e' : Num), c ≠ 0 → c.natAbs ≤ fuel → NF F e →
      pullOut incr base fuel c e = .ok (c', e') → ¬ base ∣ c' ∧ NF F e'
  | 0, c, e, c', e', hc, hf, _, _ => by omega
  | fuel + 1, c, e, c', e', hc, hf, he, h => by
    unfold pullOut at h
    split at h
    · next hm =>
      have hd : base ∣ c := Int.dvd_of_fmod_eq_zero hm
      split at h
      · cases h
      · next e1 h1 =>
        have hcd : c.fdiv base * base = c := fdiv_cancel hd
        have hne : c.fdiv base ≠ 0 := by
          intro h0; rw [h0] at hcd; omega
        refine pullOut_nf hb hi fuel _ _ c' e' hne ?_ (hi e e1 he h1) h
        have h2 : c.natAbs = (c.fdiv base).natAbs * base.natAbs := by rw [← Int.natAbs_mul, hcd]
        have h3 : 2 ≤ base.natAbs := by omega
        have h4 : 1 ≤ (c.fdiv base).natAbs := by omega
        nlinarith
    · next hm =>
      cases h
      exact ⟨fun hd => hm (Int.fmod_eq_zero_of_dvd hd), he⟩

theorem foldl_gcd_greatest {x : Int} : ∀ (ts : List ETerm) (g : Int), x ∣ g → (∀ t ∈ ts, x ∣ t.coef) →
    x ∣ ts.foldl (fun g t => Math.gcd g t.coef) g
  | [], g, hg, _ => hg
  | t :: ts, g, hg, ht => by
    refine foldl_gcd_greatest ts _ ?_ (fun u hu => ht u (List.mem_cons_of_mem _ hu))
    show x ∣ Math.gcd g t.coef
    rw [Math.gcd_eq]
    exact Int.dvd_coe_gcd hg (ht t (by simp))

theorem commonDiv_greatest {x : Int} {ts : List ETerm} {c d : Int} (hc : x ∣ c) (hd : x ∣ d) (ht : ∀ t ∈ ts, x ∣ t.coef) :
    x ∣ commonDiv ts c d := by
  have hg : x ∣ Math.gcd c d * d.sign := by
    rw [Math.gcd_eq]
    exact Dvd.dvd.mul_right (Int.dvd_coe_gcd hc hd) _
  unfold commonDiv
  dsimp only
  split
  · exact foldl_gcd_greatest ts _ hg ht
  · exact hg

theorem termNF_pow {F : Floats} {b c : Int} {e : Num} (h : TermNF F (.mk b c e)) (n k : Nat)
    (hk : Math.intPow F.math b = .ok (n, k)) : k ≤ 1 := by
  simp only [TermNF] at h
  obtain ⟨n', k', h1, h2⟩ := h.2.1
  rw [h1] at hk
  cases hk
  exact h2

theorem mapE_all {α β : Type} {f : α → Except Err β} : ∀ {xs : List α} {ys : List β}, mapE f xs = .ok ys →
    ∀ x ∈ xs, ∃ y ∈ ys, f x = .ok y
  | [], _, _, x, hx => by simp at hx
  | x :: xs, ys, h, z, hz => by
    unfold mapE at h
    split at h
    · cases h
    · next y0 h0 =>
      split at h
      · cases h
      · next ys0 h1 =>
        cases h
        rcases List.mem_cons.1 hz with rfl | hz
        · exact ⟨y0, by simp, h0⟩
        · obtain ⟨y', hy', hf⟩ := mapE_all h1 z hz
          exact ⟨y', by simp [hy'], hf⟩

theorem not_dvd_div {b cf g : Int} (hg : g ∣ cf) (h : ¬ b ∣ cf) : ¬ b ∣ cf.fdiv g := by
  intro hb
  refine h ?_
  rw [← fdiv_cancel hg]
  exact Dvd.dvd.mul_right hb _

theorem termNF_dvd {F : Floats} {b c : Int} {e : Num} (h : TermNF F (.mk b c e)) : ¬ b ∣ c := by
  simp only [TermNF] at h; exact h.2.2.1

/-- making a fraction of terms in normal form -/
theorem mkInt_nf {F : Floats} {f : Nat} {ts : List ETerm} {c d : Int} {r : Num} (ht : AllNF F ts)
    (h : mkInt F f ts c d = .ok r) : NF F r := by
  cases f with
  | zero => simp [mkInt] at h
  | succ f =>
    simp only [mkInt] at h
    split at h
    · cases h
    next hne =>
    split at h
    · cases h
    next hcm =>
    split at h
    · cases h
    next ts' c' d' hdiv =>
    split at h
    next hd' =>
      split at h
      · cases h
      next hck =>
      split at h
      next ho =>
        cases h
        simp only [NF]
        unfold divCommon at hdiv
        by_cases h1 : commonDiv ts c d = 1
        · rw [if_neg (by simpa using h1)] at hdiv
          cases hdiv
          refine ⟨by simpa using hne, hd', ho, ?_, hck, ht⟩
          intro g g1 g2 g3
          have := commonDiv_greatest g2 g1 g3
          rw [h1] at this
          have := Int.natAbs_dvd_natAbs.2 this
          simpa using this
        · rw [if_pos h1] at hdiv
          split at hdiv
          · cases hdiv
          next ts2 hts =>
          cases hdiv
          have hd0 : d ≠ 0 := by
            intro h0; rw [h0] at hd'; simp at hd'
          obtain ⟨k1, k2, k3⟩ := commonDiv_dvd ts c hd0
          have k3 := k3 h1
          have hnew : ∀ t' ∈ ts', ∃ t ∈ ts, t' = .mk t.base (t.coef.fdiv (commonDiv ts c d)) t.exponent ∧ TermNF F t' := by
            intro t' ht'
            obtain ⟨t, htm, hmk⟩ := mapE_mem hts t' ht'
            split at hmk
            · have hn := allNF_iff.1 ht t htm
              cases t with
              | mk b cf e =>
                simp only [ETerm.base, ETerm.coef, ETerm.exponent] at hmk ⊢
                have hnd : ¬ b ∣ cf.fdiv (commonDiv ts c d) := 
                    not_dvd_div (k3 _ htm) (termNF_dvd hn)
                have e1 := mkTerm_normal (termNF_pow hn) hnd hmk
                refine ⟨_, htm, e1, ?_⟩
                rw [e1]
                simp only [TermNF] at hn ⊢
                exact ⟨hn.1, hn.2.1, hnd, hn.2.2.2⟩
            · cases hmk
          refine ⟨?_, hd', ho, ?_, hck, allNF_iff.2 fun t' ht' => (hnew t' ht').choose_spec.2.2⟩
          · intro h0
            subst h0
            simp [oneBase] at ho
          · intro g g1 g2 g3
            have hall : (g : Int) * commonDiv ts c d ∣ commonDiv ts c d := by
              refine commonDiv_greatest ?_ ?_ ?_
              · conv_rhs => rw [← fdiv_cancel k1]
                exact mul_dvd_mul_right g2 _
              · conv_rhs => rw [← fdiv_cancel k2]
                exact mul_dvd_mul_right g1 _
              · intro t htm
                conv_rhs => rw [← fdiv_cancel (k3 t htm)]
                refine mul_dvd_mul_right ?_ _
                obtain ⟨t', ht', hmk⟩ := mapE_all hts t htm
                have h5 := g3 t' ht'
                split at hmk
                · have hn := allNF_iff.1 ht t htm
                  cases t with
                  | mk b cf e =>
                    simp only [ETerm.base, ETerm.coef, ETerm.exponent] at hmk ⊢
                    have hnd : ¬ b ∣ cf.fdiv (commonDiv ts c d) := 
                    not_dvd_div (k3 _ htm) (termNF_dvd hn)
                    rw [mkTerm_normal (termNF_pow hn) hnd hmk] at h5
                    exact h5
                · cases hmk
            have : (g : Int) ∣ 1 := by
              obtain ⟨q, hq⟩ := hall
              refine ⟨q, ?_⟩
              have : commonDiv ts c d * 1 = commonDiv ts c d * (g * q) := by
                rw [mul_one]; conv_lhs => rw [hq]
                ring
              exact mul_left_cancel₀ hcm this
            have := Int.natAbs_dvd_natAbs.2 this
            simpa using this
      · cases h
    · cases h

/-- the operations keep the normal form -/
structure Kept (F : Floats) (f : Nat) : Prop where
  term : ∀ b c e t, NF F e → mkTerm F f b c e = .ok t → TermNF F t
  norm : ∀ ts r, AllNF F ts → normalizeTerms F f ts = .ok r → AllNF F r
  add : ∀ a b r, NF F a → NF F b → addN F f a b = .ok r → NF F r
  mul : ∀ a b r, NF F a → NF F b → mulN F f a b = .ok r → NF F r
  mulE : ∀ ts c d b r, AllNF F ts → NF F b → mulExp F f ts c d b = .ok r → NF F r

theorem mergeLoop_nf {F : Floats} {mk : Int → Int → Num → Except Err ETerm} {base : Int}
    (hm : ∀ c e t, NF F e → mk base c e = .ok t → TermNF F t) : ∀ (ts : List ETerm) (pe : Num) (pc : Int) (r : List ETerm),
    AllNF F ts → NF F pe → mergeLoop mk base pe pc ts = .ok r → AllNF F r
  | [], pe, pc, r, _, hp, h => by
    unfold mergeLoop at h
    split at h
    · split at h
      · cases h
      · next t ht => cases h; simp only [AllNF]; exact ⟨hm _ _ _ hp ht, trivial⟩
    · cases h; simp [AllNF]
  | t :: ts, pe, pc, r, ha, hp, h => by
    simp only [AllNF] at ha
    unfold mergeLoop at h
    split at h
    · exact mergeLoop_nf hm ts _ _ r ha.2 hp h
    · split at h
      · split at h
        · cases h
        · next t' ht' =>
          split at h
          · cases h
          · next rest hr =>
            cases h
            simp only [AllNF]
            exact ⟨hm _ _ _ hp ht', mergeLoop_nf hm ts _ _ rest ha.2 (allNF_exponent ha.1) hr⟩
      · exact mergeLoop_nf hm ts _ _ r ha.2 (allNF_exponent ha.1) h

theorem scaled_nf {F : Floats} {f : Nat} (h : Kept F f) {ts ts' : List ETerm} {z : Int} (ht : AllNF F ts)
    (hm : mapE (fun t : ETerm => mkTerm F f t.base (t.coef * z) t.exponent) ts = .ok ts') : AllNF F ts' := by
  refine allNF_iff.2 fun t' ht' => ?_
  obtain ⟨t, htm, hk⟩ := mapE_mem hm t' ht'
  exact h.term _ _ _ _ (allNF_exponent (allNF_iff.1 ht t htm)) hk

theorem prodTerms_nf {F : Floats} {f : Nat} (h : Kept F f) {ts1 ts2 r : List ETerm} {c1 c2 : Int} (h1 : AllNF F ts1)
    (h2 : AllNF F ts2) (hr : prodTerms (mkTerm F f) (addN F f) ts1 c1 ts2 c2 = .ok r) : AllNF F r := by
  unfold prodTerms at hr
  split at hr
  · cases hr
  next xss hx =>
  have hflat : AllNF F xss.flatten := by
    refine allNF_iff.2 fun t ht => ?_
    obtain ⟨l, hl, htl⟩ := List.mem_flatten.1 ht
    obtain ⟨t1, ht1, hk⟩ := mapE_mem hx l hl
    have n1 := allNF_exponent (allNF_iff.1 h1 t1 ht1)
    split at hk
    · cases hk
    next xs hxs =>
    split at hk
    · cases hk
    next ys hys =>
    cases hk
    rcases List.mem_append.1 htl with ht' | ht'
    · obtain ⟨_, -, hm⟩ := mapE_mem hxs t ht'
      exact h.term _ _ _ _ n1 hm
    · obtain ⟨t2, ht2, hm⟩ := mapE_mem hys t ht'
      split at hm
      · split at hm
        · cases hm
        next e he =>
        exact h.term _ _ _ _ (h.add _ _ _ n1 (allNF_exponent (allNF_iff.1 h2 t2 ht2)) he) hm
      · cases hm
  split at hr
  · split at hr
    · cases hr
    next ys hys =>
    cases hr
    exact allNF_iff.2 fun t ht => by
      rcases List.mem_append.1 ht with ht | ht
      · exact allNF_iff.1 hflat t ht
      · exact allNF_iff.1 (scaled_nf h h2 hys) t ht
  · cases hr; exact hflat

theorem intPow_base {M : Math.Floats} {b : Int} {n k : Nat} (h : Math.intPow M b = .ok (n, k)) : 0 ≤ b := intPow_nonneg h

theorem kept_succ {F : Floats} (hF : FloatsOk F) (hP : PowersOk F.math) {f : Nat} (h : Kept F f) : Kept F (f + 1) where
  term := by
    intro b c e t he hr
    simp only [mkTerm] at hr
    split at hr
    · cases hr
    next hc =>
    split at hr
    · cases hr
    next n k hk =>
    split at hr
    · cases hr
    next e1 he1 =>
    have ne1 : NF F e1 := by
      split at he1
      · exact h.mul _ _ _ he (by simp [NF]) he1
      · cases he1; exact he
    have hpow : ∃ n' k', Math.intPow F.math (if k > 1 then (n : Int) else b) = .ok (n', k') ∧ k' ≤ 1 := by
      split
      · next hk1 => exact hP b n k hk hk1
      · exact ⟨n, k, hk, by omega⟩
    have h0 : 0 ≤ (if k > 1 then (n : Int) else b) := by
      split
      · omega
      · exact intPow_nonneg hk
    generalize (if k > 1 then (n : Int) else b) = base at hr hpow h0
    split at hr
    · cases hr
    split at hr
    · cases hr
    next hb0 hb1 =>
    split at hr
    · cases hr
    next c2 e2 hp =>
    obtain ⟨p1, p2⟩ := pullOut_nf (F := F) (by omega) (fun e e' he h' => h.add _ _ _ he (by simp [NF]) h') _ _ _ _ _ hc
      (Nat.le_refl _) ne1 hp
    split at hr
    · cases hr
    next z hz =>
      split at hr
      · cases hr
      · cases hr
        simp only [TermNF]
        refine ⟨by omega, hpow, p1, p2, fun w hw => ?_⟩
        cases hw
        rcases Int.lt_trichotomy z 0 with h1 | h1 | h1
        · omega
        · subst h1; exact absurd rfl hz
        · exact h1
    next hz1 hz2 =>
      cases hr
      simp only [TermNF]
      exact ⟨by omega, hpow, p1, p2, fun w hw => absurd hw (hz2 w)⟩
  norm := by
    intro ts r ht hr
    simp only [normalizeTerms] at hr
    split at hr
    · split at hr
      · cases hr; simp [AllNF]
      next t rest ho =>
      have hall : AllNF F (t :: rest) := by
        rw [← ho]
        exact allNF_iff.2 fun u hu => allNF_iff.1 ht u ((hF.order ts).subset hu)
      simp only [AllNF] at hall
      exact mergeLoop_nf (fun c e t' he hm => h.term _ _ _ _ he hm) rest _ _ r hall.2 (allNF_exponent hall.1) hr
    · cases hr
  add := by
    intro a b r ha hb hr
    simp only [addN] at hr
    split at hr
    · cases hr; simp [NF]
    · exact mkInt_nf (nf_terms ha) hr
    · exact mkInt_nf (nf_terms hb) hr
    · split at hr
      · cases hr
      split at hr
      · cases hr
      split at hr
      · cases hr
      next ts1' h1 =>
      split at hr
      · cases hr
      next ts2' h2 =>
      split at hr
      · cases hr
      next ts hts =>
      split at hr
      · cases hr; simp [NF]
      · refine mkInt_nf (h.norm _ _ ?_ hts) hr
        refine allNF_iff.2 fun t ht => ?_
        rcases List.mem_append.1 ht with ht | ht
        · exact allNF_iff.1 (scaled_nf h (nf_terms ha) h1) t ht
        · exact allNF_iff.1 (scaled_nf h (nf_terms hb) h2) t ht
  mul := by
    intro a b r ha hb hr
    simp only [mulN] at hr
    split at hr
    · cases hr; simp [NF]
    · exact h.mulE _ _ _ _ _ (nf_terms hb) ha hr
    · exact h.mulE _ _ _ _ _ (nf_terms ha) hb hr
  mulE := by
    intro ts c d b r ht hb hr
    have hs : NF F (simplify b) := by
      unfold simplify
      split
      · simp [NF]
      · exact hb
    simp only [mulExp] at hr
    split at hr
    · split at hr
      · cases hr; simp [NF]
      · split at hr
        · cases hr
        next ts' hts => exact mkInt_nf (scaled_nf h ht hts) hr
    next ts2 c2 d2 heq =>
      rw [heq] at hs
      split at hr
      · split at hr
        · cases hr
        next ts' hts =>
        split at hr
        · cases hr
        next ts'' hts' =>
        split at hr
        · split at hr
          · cases hr
          · cases hr; simp [NF]
        · exact mkInt_nf (h.norm _ _ (prodTerms_nf h ht (nf_terms hs) hts) hts') hr
      · cases hr

theorem kept {F : Floats} (hF : FloatsOk F) (hP : PowersOk F.math) : ∀ f, Kept F f
  | 0 => by
    constructor
    · intro b c e t _ h; simp [mkTerm] at h
    · intro ts r _ h; simp [normalizeTerms] at h
    · intro a b r _ _ h; simp [addN] at h
    · intro a b r _ _ h; simp [mulN] at h
    · intro ts c d b r _ _ h; simp [mulExp] at h
  | f + 1 => kept_succ hF hP (kept hF hP f)

/-! ## Making a number from its parts -/

theorem mkTerm_id {F : Floats} {b c : Int} {e : Num} (h : TermNF F (.mk b c e)) (f : Nat) : mkTerm F (f + 1) b c e = .ok (.mk b c e) := by
  have hp := termNF_pow h
  have hd := termNF_dvd h
  simp only [TermNF] at h
  obtain ⟨h1, ⟨n, k, hk, hk1⟩, -, -, h5⟩ := h
  have hc : c ≠ 0 := by rintro rfl; exact hd (dvd_zero b)
  simp only [mkTerm]
  rw [if_neg hc, hk]
  dsimp only
  rw [if_neg (by omega), if_neg (by omega)]
  dsimp only
  rw [if_neg (by omega), if_neg (by omega)]
  have hpo : pullOut (fun e => addN F f e (.int 1)) b c.natAbs c e = .ok (c, e) := by
    cases c.natAbs with
    | zero => rfl
    | succ m =>
      unfold pullOut
      rw [if_neg]
      intro h0; exact hd (Int.dvd_of_fmod_eq_zero h0)
  rw [hpo]
  dsimp only
  split
  · exact absurd (h5 0 rfl) (by omega)
  · next z _ => rw [if_neg (by have := h5 z rfl; omega)]
  · rfl

theorem mkInt_id {F : Floats} {ts : List ETerm} {c d : Int} (h : NF F (.exp ts c d)) (f : Nat) :
    mkInt F (f + 1) ts c d = .ok (.exp ts c d) := by
  simp only [NF] at h
  obtain ⟨h1, h2, h3, h4, h5, -⟩ := h
  simp only [mkInt, commonDiv_lowest h2 h4, divCommon]
  rw [if_neg (by simpa using h1), if_neg (by omega), if_neg (by simp)]
  dsimp only
  rw [if_pos h2, h5]
  dsimp only
  rw [if_pos h3]

theorem intPowLoop_big (M : Math.Floats) (n : Nat) : ∀ ms : List Nat, (∀ m ∈ ms, 2 ≤ m) →
    2 ≤ (Math.intPowLoop M n ms).1 ∨ (Math.intPowLoop M n ms).2 = 1
  | [], _ => Or.inr rfl
  | m :: ms, h => by
    unfold Math.intPowLoop
    split
    · exact Or.inl (h m (by simp))
    · exact intPowLoop_big M n ms (fun m' hm => h m' (by simp [hm]))

theorem intPow_big {M : Math.Floats} {b : Int} {n k : Nat} (h : Math.intPow M b = .ok (n, k)) (hk : 1 < k) : 2 ≤ n := by
  unfold Math.intPow at h
  split at h
  · cases h
  split at h
  · cases h
  next s _ =>
  have := intPowLoop_big M b.toNat (List.range' 2 (s + 1 - 2)) (fun m hm => (List.mem_range'_1.1 hm).1)
  injection h with h
  rw [h] at this
  dsimp only at this
  omega

end Model.ExpInt

namespace Model.ExpProto
open Spec Model.ExpInt Model.Status

theorem getPlain_holds {loads : List Nat → Option Num} {b : BigInt} {x : Num} (h : FieldHolds loads b x) :
    getPlain loads b = .ok (some x) := by
  cases x <;> simp only [FieldHolds] at h <;> simp [getPlain, h]

mutual
theorem reads_big (F : Floats) (fuel : Nat) (loads : List Nat → Option Num) : ∀ (m : BigMsg) (x : Num), NF F x →
    Describes loads m x → getBig F (fuel + 1) loads m = .ok (some x)
  | .absent, _, _, h => by simp [Describes] at h
  | .plain b, x, _, h => by simp only [Describes] at h; simp only [getBig]; exact getPlain_holds h
  | .expInt e, x, hn, h => by
    simp only [Describes] at h
    simp only [getBig, reads_exp F fuel loads e x hn h]
  | .expStr _, _, _, h => by simp [Describes] at h
theorem reads_exp (F : Floats) (fuel : Nat) (loads : List Nat → Option Num) : ∀ (m : ExpMsg) (x : Num), NF F x →
    DescribesExp loads m x → parseExp F (fuel + 1) loads m = .ok x
  | .mk tms cm co dm, x, hn, h => by
    simp only [DescribesExp] at h
    obtain ⟨ts, c, d, rfl, ht, hc, hd⟩ := h
    have h1 := reads_terms F fuel loads tms ts (nf_terms hn) ht
    have h2 : newOr cm co (getBig F (fuel + 1) loads cm) = .ok (some (.int c)) := by
      rcases hc with ⟨rfl, rfl⟩ | hc
      · rfl
      · have := reads_big F fuel loads cm (.int c) (by simp [NF]) hc
        cases cm with
        | absent => simp [Describes] at hc
        | plain b => exact this
        | expInt e => exact this
        | expStr s => exact this
    rw [parseExp, h2]
    simp only [h1, asInt, hd]
    exact mkInt_id hn fuel
theorem reads_terms (F : Floats) (fuel : Nat) (loads : List Nat → Option Num) : ∀ (ms : List TermMsg) (ts : List ETerm),
    AllNF F ts → DescribesTerms loads ms ts → parseTerms F (fuel + 1) loads ms = .ok ts
  | [], ts, _, h => by simp only [DescribesTerms] at h; subst h; simp [parseTerms]
  | m :: ms, ts, hn, h => by
    simp only [DescribesTerms] at h
    obtain ⟨t, ts', rfl, ht, hts⟩ := h
    simp only [AllNF] at hn
    simp only [parseTerms, reads_term F fuel loads m t hn.1 ht, reads_terms F fuel loads ms ts' hn.2 hts]
theorem reads_term (F : Floats) (fuel : Nat) (loads : List Nat → Option Num) : ∀ (m : TermMsg) (t : ETerm), TermNF F t →
    DescribesTerm loads m t → parseTerm F (fuel + 1) loads m = .ok t
  | .mk bm cm co em, t, hn, h => by
    simp only [DescribesTerm] at h
    obtain ⟨b, c, e, rfl, hb, hc, he⟩ := h
    have h2 : newOr cm co (getBig F (fuel + 1) loads cm) = .ok (some (.int c)) := by
      rcases hc with ⟨rfl, rfl⟩ | hc
      · rfl
      · have := reads_big F fuel loads cm (.int c) (by simp [NF]) hc
        cases cm with
        | absent => simp [Describes] at hc
        | plain b => exact this
        | expInt e => exact this
        | expStr s => exact this
    have h3 := reads_big F fuel loads em e (allNF_exponent hn) he
    rw [parseTerm, h2]
    simp only [h3, asInt, asNum, hb]
    exact mkTerm_id hn fuel
end

theorem setBig_ok (dumps : Num → List Nat) (x : Num) : ∃ m, setBig dumps x = .ok m := by
  cases x with
  | int z =>
    obtain ⟨f, hf, -⟩ := Props.C31_bigint_roundtrip dumps (fun _ => none) .unset z
    exact ⟨.plain f, by simp only [setBig, hf]⟩
  | exp ts c d => exact ⟨.plain (.expPickle (dumps (.exp ts c d))), by simp only [setBig, setBigInt]⟩

theorem setBig_describes (dumps : Num → List Nat) (loads : List Nat → Option Num) (hp : ∀ x, loads (dumps x) = some x) (x : Num)
    (m : BigMsg) (h : setBig dumps x = .ok m) : Describes loads m x := by
  cases x with
  | int z =>
    obtain ⟨f, hf, hg⟩ := Props.C31_bigint_roundtrip dumps loads .unset z
    simp only [setBig, hf] at h
    cases h
    simpa [Describes, FieldHolds] using hg
  | exp ts c d =>
    obtain ⟨f, hf, hg⟩ := Props.C31_expint_roundtrip dumps loads hp .unset (.exp ts c d)
    simp only [setBig, hf] at h
    cases h
    simpa [Describes, FieldHolds] using hg

theorem serializeTerms_ok (dumps : Num → List Nat) : ∀ ts : List ETerm, (∀ t ∈ ts, 0 ≤ t.base ∧ t.base < 2 ^ 64) →
    ∃ tms, mapE (serializeTerm dumps) ts = .ok tms
  | [], _ => ⟨[], rfl⟩
  | t :: ts, h => by
    obtain ⟨tms, ht⟩ := serializeTerms_ok dumps ts (fun u hu => h u (by simp [hu]))
    obtain ⟨m1, h1⟩ := setBig_ok dumps (.int t.coef)
    obtain ⟨m2, h2⟩ := setBig_ok dumps t.exponent
    exact ⟨.mk t.base.toNat m1 0 m2 :: tms, by simp only [mapE, serializeTerm, setUint64, if_pos (h t (by simp)), h1, h2, ht]⟩

theorem serializeTerms_error (dumps : Num → List Nat) : ∀ ts : List ETerm, ¬ (∀ t ∈ ts, 0 ≤ t.base ∧ t.base < 2 ^ 64) →
    mapE (serializeTerm dumps) ts = .error .value
  | [], h => absurd (by simp) h
  | t :: ts, h => by
    obtain ⟨m1, h1⟩ := setBig_ok dumps (.int t.coef)
    obtain ⟨m2, h2⟩ := setBig_ok dumps t.exponent
    simp only [mapE, serializeTerm, setUint64]
    by_cases hb : 0 ≤ t.base ∧ t.base < 2 ^ 64
    · simp only [if_pos hb, h1, h2]
      rw [serializeTerms_error dumps ts]
      intro h'
      refine h fun u hu => ?_
      rcases List.mem_cons.1 hu with rfl | hu
      · exact hb
      · exact h' u hu
    · simp only [if_neg hb]

theorem serializeTerms_describes (dumps : Num → List Nat) (loads : List Nat → Option Num) (hp : ∀ x, loads (dumps x) = some x) :
    ∀ (ts : List ETerm) (tms : List TermMsg), mapE (serializeTerm dumps) ts = .ok tms → DescribesTerms loads tms ts
  | [], tms, h => by cases h; simp [DescribesTerms]
  | t :: ts, tms, h => by
    obtain ⟨m1, h1⟩ := setBig_ok dumps (.int t.coef)
    obtain ⟨m2, h2⟩ := setBig_ok dumps t.exponent
    simp only [mapE, serializeTerm, setUint64] at h
    by_cases hb : 0 ≤ t.base ∧ t.base < 2 ^ 64
    · simp only [if_pos hb, h1, h2] at h
      split at h
      · cases h
      next tms' ht =>
      cases h
      simp only [DescribesTerms]
      refine ⟨t, ts, rfl, ?_, serializeTerms_describes dumps loads hp ts tms' ht⟩
      cases t with
      | mk b c e =>
        simp only [DescribesTerm]
        exact ⟨b, c, e, rfl, by simp only [ETerm.base] at hb ⊢; omega, Or.inr (setBig_describes dumps loads hp _ _ h1),
          setBig_describes dumps loads hp _ _ h2⟩
    · simp only [if_neg hb] at h
      cases h

theorem serializeExp_describes (dumps : Num → List Nat) (loads : List Nat → Option Num) (hp : ∀ x, loads (dumps x) = some x)
    (ts : List ETerm) (c d : Int) (m : ExpMsg) (h : serializeExp dumps ts c d = .ok m) :
    Describes loads (.expInt m) (.exp ts c d) := by
  obtain ⟨mc, hc⟩ := setBig_ok dumps (.int c)
  simp only [serializeExp, hc, setUint64] at h
  by_cases hd : 0 ≤ d ∧ d < 2 ^ 64
  · simp only [if_pos hd] at h
    split at h
    · cases h
    next tms ht =>
    cases h
    simp only [Describes, DescribesExp]
    exact ⟨ts, c, d, rfl, serializeTerms_describes dumps loads hp ts tms ht, Or.inr (setBig_describes dumps loads hp _ _ hc),
      by omega⟩
  · simp only [if_neg hd] at h
    cases h

mutual
theorem read_nf (F : Floats) (hF : FloatsOk F) (hP : PowersOk F.math) (fuel : Nat) (loads : List Nat → Option Num)
    (hl : ∀ s x, loads s = some x → NF F x) : ∀ (m : BigMsg) (x : Num), getBig F fuel loads m = .ok (some x) → NF F x
  | .absent, x, h => by simp [getBig] at h
  | .plain b, x, h => by
    simp only [getBig, getPlain] at h
    split at h
    · cases h
    · cases h
    · cases h; simp [NF]
    next y hy =>
      cases h
      cases b <;> simp [getBigInt] at hy
      · exact hl _ _ hy
    · cases h
  | .expInt e, x, h => by
    simp only [getBig] at h
    split at h
    · cases h
    next v hv => cases h; exact parse_nf F hF hP fuel loads hl e x hv
  | .expStr s, x, h => by simp [getBig] at h
theorem parse_nf (F : Floats) (hF : FloatsOk F) (hP : PowersOk F.math) (fuel : Nat) (loads : List Nat → Option Num)
    (hl : ∀ s x, loads s = some x → NF F x) : ∀ (m : ExpMsg) (x : Num), parseExp F fuel loads m = .ok x → NF F x
  | .mk tms cm co dm, x, h => by
    rw [parseExp] at h
    split at h
    · cases h
    split at h
    · cases h
    next ts hts =>
    split at h
    · cases h
    exact mkInt_nf (parseTerms_nf F hF hP fuel loads hl tms ts hts) h
theorem parseTerms_nf (F : Floats) (hF : FloatsOk F) (hP : PowersOk F.math) (fuel : Nat) (loads : List Nat → Option Num)
    (hl : ∀ s x, loads s = some x → NF F x) : ∀ (ms : List TermMsg) (ts : List ETerm), parseTerms F fuel loads ms = .ok ts →
    AllNF F ts
  | [], ts, h => by simp only [parseTerms] at h; cases h; simp [AllNF]
  | m :: ms, ts, h => by
    simp only [parseTerms] at h
    split at h
    · cases h
    next t ht =>
    split at h
    · cases h
    next ts' hts =>
    cases h
    simp only [AllNF]
    exact ⟨parseTerm_nf F hF hP fuel loads hl m t ht, parseTerms_nf F hF hP fuel loads hl ms ts' hts⟩
theorem parseTerm_nf (F : Floats) (hF : FloatsOk F) (hP : PowersOk F.math) (fuel : Nat) (loads : List Nat → Option Num)
    (hl : ∀ s x, loads s = some x → NF F x) : ∀ (m : TermMsg) (t : ETerm), parseTerm F fuel loads m = .ok t → TermNF F t
  | .mk bm cm co em, t, h => by
    rw [parseTerm] at h
    split at h
    · cases h
    split at h
    · cases h
    next e he =>
    split at h
    next c' e' h1 h2 =>
      cases e with
      | none => simp [asNum] at h2
      | some y =>
        cases h2
        exact (kept hF hP fuel).term _ _ _ _ (read_nf F hF hP fuel loads hl em _ he) h
    · cases h
end

/-! ## Pickling is possible -/

def code (z : Int) : List Nat := [z.toNat, (-z).toNat]

theorem code_inj {a b : Int} {r s : List Nat} (h : code a ++ r = code b ++ s) : a = b ∧ r = s := by
  simp only [code, List.cons_append, List.nil_append, List.cons.injEq] at h
  exact ⟨by omega, h.2.2⟩

mutual
def enc : Num → List Nat
  | .int z => 0 :: code z
  | .exp ts c d => 1 :: (code c ++ (code d ++ encs ts))
def encs : List ETerm → List Nat
  | [] => [0]
  | t :: ts => 1 :: (encT t ++ encs ts)
def encT : ETerm → List Nat
  | .mk b c e => code b ++ (code c ++ enc e)
end

mutual
theorem enc_inj : ∀ (a b : Num) (r s : List Nat), enc a ++ r = enc b ++ s → a = b ∧ r = s
  | .int a, .int b, r, s, h => by
    simp only [enc, List.cons_append, List.cons.injEq, true_and] at h
    obtain ⟨rfl, h1⟩ := code_inj h
    exact ⟨rfl, h1⟩
  | .int a, .exp _ _ _, r, s, h => by simp [enc] at h
  | .exp _ _ _, .int b, r, s, h => by simp [enc] at h
  | .exp ts c d, .exp ts' c' d', r, s, h => by
    simp only [enc, List.cons_append, List.append_assoc, List.cons.injEq, true_and] at h
    obtain ⟨rfl, h1⟩ := code_inj h
    obtain ⟨rfl, h2⟩ := code_inj h1
    obtain ⟨rfl, h3⟩ := encs_inj ts ts' r s h2
    exact ⟨rfl, h3⟩
theorem encs_inj : ∀ (a b : List ETerm) (r s : List Nat), encs a ++ r = encs b ++ s → a = b ∧ r = s
  | [], [], r, s, h => by simpa [encs] using h
  | [], _ :: _, r, s, h => by simp [encs] at h
  | _ :: _, [], r, s, h => by simp [encs] at h
  | t :: ts, t' :: ts', r, s, h => by
    simp only [encs, List.cons_append, List.append_assoc, List.cons.injEq, true_and] at h
    obtain ⟨rfl, h1⟩ := encT_inj t t' _ _ h
    obtain ⟨rfl, h2⟩ := encs_inj ts ts' r s h1
    exact ⟨rfl, h2⟩
theorem encT_inj : ∀ (a b : ETerm) (r s : List Nat), encT a ++ r = encT b ++ s → a = b ∧ r = s
  | .mk b c e, .mk b' c' e', r, s, h => by
    simp only [encT, List.append_assoc] at h
    obtain ⟨rfl, h1⟩ := code_inj h
    obtain ⟨rfl, h2⟩ := code_inj h1
    obtain ⟨rfl, h3⟩ := enc_inj e e' r s h2
    exact ⟨rfl, h3⟩
end

theorem pickling_exists : ∃ (dumps : Num → List Nat) (loads : List Nat → Option Num), ∀ x, loads (dumps x) = some x := by
  classical
  have hi : Function.Injective enc := fun a b h => (enc_inj a b [] [] (by rw [h])).1
  exact ⟨enc, Function.partialInv enc, fun x => Function.partialInv_left hi x⟩

end Model.ExpProto
