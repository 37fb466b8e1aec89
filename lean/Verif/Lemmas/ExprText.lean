import Verif.Spec.ExprText
import Verif.Lemmas.Morphett
import Verif.Lemmas.RecordTools

/-!
# Lemmas on the text of expressions
-/

namespace Model.ExprText
open Model.Expr Spec Model.IO Model.RecordTools

/-! ## Characters -/

/-- the characters of powers of variables -/
def Tok (c : Char) : Prop := c ∈ Py.digits ∨ ('a'.toNat ≤ c.toNat ∧ c.toNat ≤ 'z'.toNat) ∨ c = '<' ∨ c = '>' ∨ c = '^'

theorem tok_facts {c : Char} (h : Tok c) : Py.isSpace c = false ∧ c ≠ '+' ∧ c ≠ '-' ∧ c ≠ '(' := by
  rcases h with h | h | h | h | h
  · revert c; decide
  · have : c = Char.ofNat c.toNat := (Char.ofNat_toNat c).symm
    rw [this]
    have h1 : 97 ≤ c.toNat := h.1
    have h2 : c.toNat ≤ 122 := h.2
    generalize c.toNat = k at h1 h2
    interval_cases k <;> decide
  · subst h; decide
  · subst h; decide
  · subst h; decide

theorem digits_tok {n : Nat} {c : Char} (h : c ∈ Nat.toDigits 10 n) : c ∈ Py.digits :=
  mem_digits_of_isDigit (Nat.isDigit_of_mem_toDigits (by decide) (by decide) h)

theorem toDigits_ne (n : Nat) : Nat.toDigits 10 n ≠ [] := by
  have := Nat.length_toDigits_pos (b := 10) (n := n)
  intro h
  rw [h] at this
  simp at this

theorem caret_digits {n : Nat} : '^' ∉ Nat.toDigits 10 n := fun h => by
  have := digits_tok h
  revert this; decide

/-- letters and `<` begin the name of a variable -/
def Begins (c : Char) : Prop := Tok c ∧ c ∉ Py.digits ∧ c ≠ '^'

theorem letter (id : Nat) (h : id ≤ 25) : Begins (Char.ofNat (id + 'a'.toNat)) ∧ Char.ofNat (id + 'a'.toNat) ≠ '<' ∧
    varOf [Char.ofNat (id + 'a'.toNat)] = .ok id := by
  show Begins (Char.ofNat (id + 97)) ∧ Char.ofNat (id + 97) ≠ '<' ∧ varOf [Char.ofNat (id + 97)] = .ok (id : Int)
  unfold Begins Tok
  interval_cases id <;> decide

theorem reprVar_first (id : Nat) : ∃ c r, reprVar id = c :: r ∧ Begins c := by
  unfold reprVar
  split
  · next h => exact ⟨_, [], rfl, (letter id h).1⟩
  · exact ⟨'<', _, rfl, by unfold Begins Tok; decide⟩

theorem reprVar_tok (id : Nat) : ∀ c ∈ reprVar id, Tok c ∧ c ≠ '^' := by
  intro c hc
  unfold reprVar at hc
  split at hc
  · next h => rw [List.mem_singleton.1 hc]; exact ⟨(letter id h).1.1, (letter id h).1.2.2⟩
  · have hc : c = '<' ∨ c = 'x' ∨ c ∈ Nat.toDigits 10 id ∨ c = '>' := by simpa using hc
    rcases hc with rfl | rfl | hc | rfl
    · unfold Tok; decide
    · unfold Tok; decide
    · exact ⟨Or.inl (digits_tok hc), fun e => caret_digits (e ▸ hc)⟩
    · unfold Tok; decide

theorem reprVP_first (v : VarPow) : ∃ c r, reprVP v = c :: r ∧ Begins c := by
  obtain ⟨c, r, h, hb⟩ := reprVar_first v.var
  unfold reprVP
  split
  · exact ⟨c, r, h, hb⟩
  · exact ⟨c, r ++ '^' :: Nat.toDigits 10 v.pow, by rw [h]; rfl, hb⟩

theorem reprVP_tok (v : VarPow) : ∀ c ∈ reprVP v, Tok c := by
  intro c hc
  unfold reprVP at hc
  split at hc
  · exact (reprVar_tok _ c hc).1
  · rcases List.mem_append.1 hc with hc | hc
    · exact (reprVar_tok _ c hc).1
    · rcases List.mem_cons.1 hc with rfl | hc
      · unfold Tok; decide
      · exact Or.inl (digits_tok hc)

/-! ## Numbers -/

theorem natOf_digits (n : Nat) : natOf (Nat.toDigits 10 n) = some n := by
  unfold natOf
  have hall : (Nat.toDigits 10 n).all (· ∈ Py.digits) = true := by
    rw [List.all_eq_true]
    intro c hc
    simpa using digits_tok hc
  rw [if_pos ⟨toDigits_ne n, hall⟩, Nat.ofDigitChars_toDigits (by decide) (by decide)]

theorem strip_tight {t : List Char} (h : ∀ c ∈ t, Py.isSpace c = false) : Py.strip t = t := strip_noop t h

theorem intOf_digits (n : Nat) : intOf (Nat.toDigits 10 n) = some (n : Int) := by
  unfold intOf
  rw [strip_tight (fun c hc => (digit_not (digits_tok hc)).1)]
  split
  · next ds e => exact absurd rfl (digit_not (digits_tok (n := n) (c := '-') (by rw [e]; simp))).2.1
  · next ds e => exact absurd rfl (digit_not (digits_tok (n := n) (c := '+') (by rw [e]; simp))).2.2.1
  · rw [natOf_digits]; rfl

theorem intOf_neg_digits (n : Nat) : intOf ('-' :: Nat.toDigits 10 n) = some (-(n : Int)) := by
  unfold intOf
  rw [strip_tight (by
    intro c hc
    rcases List.mem_cons.1 hc with rfl | hc
    · decide
    · exact (digit_not (digits_tok hc)).1)]
  simp only [natOf_digits]; rfl

theorem mem_strip {c : Char} {s : List Char} (h : c ∈ s) (hs : Py.isSpace c = false) : c ∈ Py.strip s := by
  have key : ∀ l : List Char, c ∈ l → c ∈ l.dropWhile Py.isSpace := by
    intro l
    induction l with
    | nil => intro h; exact h
    | cons x l ih =>
      intro h
      rw [List.dropWhile_cons]
      split
      · next hx =>
        rcases List.mem_cons.1 h with rfl | h
        · rw [hs] at hx; cases hx
        · exact ih h
      · exact h
  unfold Py.strip
  rw [List.mem_reverse]
  exact key _ (List.mem_reverse.2 (key _ h))

theorem intOf_none {c : Char} {s : List Char} (h : c ∈ s) (hs : Py.isSpace c = false) (hd : c ∉ Py.digits) (h1 : c ≠ '-')
    (h2 : c ≠ '+') : intOf s = none := by
  have hm := mem_strip h hs
  have hn : ∀ ds : List Char, c ∈ ds → natOf ds = none := by
    intro ds hc
    unfold natOf
    rw [if_neg]
    rintro ⟨-, h⟩
    have := List.all_eq_true.1 h c hc
    exact hd (by simpa using this)
  unfold intOf
  split
  · next ds e =>
    rw [e] at hm
    rw [hn ds (by rcases List.mem_cons.1 hm with h | h; exact absurd h h1; exact h)]; rfl
  · next ds e =>
    rw [e] at hm
    rw [hn ds (by rcases List.mem_cons.1 hm with h | h; exact absurd h h2; exact h)]; rfl
  · rw [hn _ hm]; rfl

theorem begins_none {c : Char} {s : List Char} (h : c ∈ s) (hb : Begins c) : intOf s = none :=
  intOf_none h (tok_facts hb.1).1 hb.2.1 (tok_facts hb.1).2.2.1 (tok_facts hb.1).2.1

/-! ## Powers of variables -/

theorem varOf_repr (id : Nat) : varOf (reprVar id) = .ok (id : Int) := by
  unfold reprVar
  split
  · next h => exact (letter id h).2.2
  · show intE (Nat.toDigits 10 id ++ ['>']).dropLast = _
    rw [List.dropLast_concat, intE, intOf_digits]

theorem vpOf_repr (v : VarPow) : vpOf (reprVP v) = .ok ((v.var : Int), (v.pow : Int)) := by
  have hc : '^' ∉ reprVar v.var := fun h => (reprVar_tok _ _ h).2 rfl
  by_cases h : v.pow = 1
  · have e : reprVP v = reprVar v.var := if_pos h
    unfold vpOf
    rw [e, split_noSep '^' _ hc]
    simp only [varOf_repr, h]
    rfl
  · have e : reprVP v = reprVar v.var ++ '^' :: Nat.toDigits 10 v.pow := if_neg h
    unfold vpOf
    rw [e, split_two _ _ hc caret_digits]
    simp only [varOf_repr, intE, intOf_digits]

theorem mapX_ok {α β : Type} {f : α → Except Exn β} {g : α → β} : ∀ (xs : List α), (∀ x ∈ xs, f x = .ok (g x)) →
    mapX f xs = .ok (xs.map g)
  | [], _ => rfl
  | x :: xs, h => by
    simp only [mapX, h x (by simp), mapX_ok xs (fun y hy => h y (by simp [hy])), List.map_cons]

theorem mapX_error {α β : Type} {f : α → Except Exn β} {e : Exn} : ∀ (xs : List α) (x : α) (ys : List α),
    (∀ x ∈ xs, ∃ y, f x = .ok y) → f x = .error e → mapX f (xs ++ x :: ys) = .error e
  | [], x, ys, _, hx => by simp only [List.nil_append, mapX, hx]
  | z :: xs, x, ys, h, hx => by
    obtain ⟨y, hy⟩ := h z (by simp)
    simp only [List.cons_append, mapX, hy, mapX_error xs x ys (fun w hw => h w (by simp [hw])) hx]

theorem mapX_reprVP (vs : List VarPow) : mapX vpOf (vs.map reprVP) = .ok (vs.map fun v => ((v.var : Int), (v.pow : Int))) := by
  induction vs with
  | nil => rfl
  | cons v vs ih => simp only [List.map_cons, mapX, vpOf_repr, ih]

/-! ## Words -/

/-- the words of a summand -/
def Summand.words : Summand → List (List Char)
  | .const n => [Nat.toDigits 10 n]
  | .plain v vs => (v :: vs).map reprVP
  | .times n v vs => Nat.toDigits 10 n :: (v :: vs).map reprVP

theorem text_eq (s : Summand) : s.text = Py.join ' ' (Summand.words s) := by cases s <;> rfl

/-- a word: not empty, without spaces and signs -/
def Word (w : List Char) : Prop := w ≠ [] ∧ ∀ c ∈ w, Tok c

theorem word_digits (n : Nat) : Word (Nat.toDigits 10 n) := ⟨toDigits_ne n, fun _ hc => Or.inl (digits_tok hc)⟩

theorem word_vp (v : VarPow) : Word (reprVP v) := by
  obtain ⟨c, r, h, -⟩ := reprVP_first v
  exact ⟨by rw [h]; simp, reprVP_tok v⟩

theorem words_words (s : Summand) : ∀ w ∈ Summand.words s, Word w := by
  intro w hw
  cases s with
  | const n => rw [List.mem_singleton.1 hw]; exact word_digits n
  | plain v vs => obtain ⟨x, -, rfl⟩ := List.mem_map.1 hw; exact word_vp x
  | times n v vs =>
    rcases List.mem_cons.1 hw with rfl | hw
    · exact word_digits n
    · obtain ⟨x, -, rfl⟩ := List.mem_map.1 hw; exact word_vp x

theorem words_ne (s : Summand) : Summand.words s ≠ [] := by cases s <;> simp [Summand.words]

theorem text_chars (s : Summand) : ∀ c ∈ s.text, c = ' ' ∨ Tok c := by
  intro c hc
  rw [text_eq] at hc
  rcases join_chars ' ' _ c hc with h | ⟨r, hr, h⟩
  · exact Or.inl h
  · exact Or.inr ((words_words s r hr).2 c h)

theorem text_no (s : Summand) : '+' ∉ s.text ∧ '-' ∉ s.text := by
  constructor
  · intro h
    rcases text_chars s _ h with h | h
    · exact absurd h (by decide)
    · exact (tok_facts h).2.1 rfl
  · intro h
    rcases text_chars s _ h with h | h
    · exact absurd h (by decide)
    · exact (tok_facts h).2.2.1 rfl

/-- begins and ends with a character that is not a space -/
def Tight (t : List Char) : Prop := (∃ x u, t = x :: u ∧ Py.isSpace x = false) ∧ ∃ y, t.getLast? = some y ∧ Py.isSpace y = false

theorem word_tight {w : List Char} (h : Word w) : Tight w := by
  obtain ⟨hne, h⟩ := h
  constructor
  · cases w with
    | nil => exact absurd rfl hne
    | cons x u => exact ⟨x, u, rfl, (tok_facts (h x (by simp))).1⟩
  · exact ⟨w.getLast hne, List.getLast?_eq_some_getLast hne, (tok_facts (h _ (List.getLast_mem hne))).1⟩

theorem text_tight (s : Summand) : Tight s.text := by
  rw [text_eq, join_eq]
  exact intercalate_ends [' '] _ (words_ne s) (fun w hw => word_tight (words_words s w hw))

theorem tight_minus {t : List Char} (h : Tight t) : Tight ('-' :: t) := by
  obtain ⟨⟨x, u, rfl, -⟩, y, hy, hs⟩ := h
  exact ⟨⟨'-', _, rfl, by decide⟩, y, by rw [List.getLast?_cons_cons]; exact hy, hs⟩

theorem blank_space (n : Nat) : ∀ c ∈ blank n, Py.isSpace c = true := by
  intro c hc
  rw [(List.mem_replicate.1 hc).2]
  decide

theorem blank_no (n : Nat) : '+' ∉ blank n ∧ '-' ∉ blank n := by
  constructor <;> intro h <;> exact absurd (List.mem_replicate.1 h).2 (by decide)

theorem strip_blank {t : List Char} (h : Tight t) (a b : Nat) : Py.strip (blank a ++ t ++ blank b) = t := by
  obtain ⟨⟨x, u, hx, hs⟩, y, hy, hs'⟩ := h
  have e : (blank a ++ t ++ blank b).dropWhile Py.isSpace = (t ++ blank b).dropWhile Py.isSpace := by
    rw [List.append_assoc, List.dropWhile_append_of_pos (blank_space a)]
  have := strip_core t (blank b) x y u hs hx hy hs' (blank_space b)
  unfold Py.strip at this ⊢
  rw [e]
  exact this

theorem strip_blanks (n : Nat) : Py.strip (blank n) = [] := by
  unfold Py.strip
  have : (blank n).dropWhile Py.isSpace = [] := by
    have := List.dropWhile_append_of_pos (blank_space n) (l₂ := [])
    simpa using this
  rw [this]
  rfl

theorem words_blank (n : Nat) (s : List Char) : Py.words (blank n ++ s) = Py.words s := by
  induction n with
  | zero => rfl
  | succ n ih =>
    show Py.wordsAux (' ' :: (blank n ++ s)) [] = _
    unfold Py.wordsAux
    rw [if_pos (by decide), if_pos rfl]
    exact ih

theorem words_join : ∀ ws : List (List Char), ws ≠ [] → (∀ w ∈ ws, w ≠ [] ∧ ∀ c ∈ w, Py.isSpace c = false) →
    ∀ rest, (rest = [] ∨ ∃ r, rest = ' ' :: r) → Py.words (Py.join ' ' ws ++ rest) = ws ++ Py.words rest
  | [], h, _, _, _ => absurd rfl h
  | [w], _, h, rest, hr => by
    obtain ⟨h1, h2⟩ := h w (by simp)
    rcases hr with rfl | ⟨r, rfl⟩
    · show Py.words (w ++ []) = _
      rw [List.append_nil, words_one w h1 h2]; rfl
    · show Py.words (w ++ ' ' :: r) = _
      rw [words_cons w r h1 h2]
      have := words_blank 1 r
      show w :: Py.words r = w :: Py.words (blank 1 ++ r)
      rw [this]
  | w :: w' :: ws, _, h, rest, hr => by
    obtain ⟨h1, h2⟩ := h w (by simp)
    show Py.words ((w ++ ' ' :: Py.join ' ' (w' :: ws)) ++ rest) = _
    rw [List.append_assoc, List.cons_append, words_cons w _ h1 h2,
      words_join (w' :: ws) (by simp) (fun x hx => h x (by simp [hx])) rest hr]
    rfl

/-- the text of a summand with or without a minus sign -/
def signText (neg : Bool) (s : Summand) : List Char := (if neg then ['-'] else []) ++ s.text

/-- its words -/
def signWords (neg : Bool) (s : Summand) : List (List Char) :=
  match Summand.words s with
  | [] => []
  | w :: ws => ((if neg then ['-'] else []) ++ w) :: ws

theorem signText_eq (neg : Bool) (s : Summand) : signText neg s = Py.join ' ' (signWords neg s) := by
  unfold signText signWords
  rw [text_eq]
  cases h : Summand.words s with
  | nil => exact absurd h (words_ne s)
  | cons w ws => cases ws <;> simp [Py.join]

theorem words_sign (neg : Bool) (s : Summand) (rest : List Char) (hr : rest = [] ∨ ∃ r, rest = ' ' :: r) :
    Py.words (signText neg s ++ rest) = signWords neg s ++ Py.words rest := by
  rw [signText_eq]
  refine words_join _ ?_ ?_ rest hr
  · unfold signWords
    cases h : Summand.words s with
    | nil => exact absurd h (words_ne s)
    | cons w ws => simp
  · have hw := words_words s
    unfold signWords
    cases h : Summand.words s with
    | nil => intro w hw; simp at hw
    | cons w ws =>
      rw [h] at hw
      intro x hx
      rcases List.mem_cons.1 hx with rfl | hx
      · have := hw w (by simp)
        refine ⟨by simp [this.1], fun c hc => ?_⟩
        rcases List.mem_append.1 hc with hc | hc
        · split at hc
          · rw [List.mem_singleton.1 hc]; decide
          · cases hc
        · exact (tok_facts (this.2 c hc)).1
      · have := hw x (by simp [hx])
        exact ⟨this.1, fun c hc => (tok_facts (this.2 c hc)).1⟩

theorem signText_tight (neg : Bool) (s : Summand) : Tight (signText neg s) := by
  cases neg
  · exact text_tight s
  · exact tight_minus (text_tight s)

/-! ## Summands -/

def sgn (neg : Bool) : Int := if neg then -1 else 1

/-- how a text is read: as the term, or as the number -/
def ReadAs (t : List Char) : Int × Summand → Prop
  | (σ, .const n) => intOf t = some (σ * n)
  | (σ, .plain v vs) => intOf t = none ∧ termOf t = .ok ⟨(v :: vs).map fun v => ((v.var : Int), (v.pow : Int)), σ⟩
  | (σ, .times n v vs) => intOf t = none ∧ termOf t = .ok ⟨(v :: vs).map fun v => ((v.var : Int), (v.pow : Int)), σ * n⟩

/-- the beginning of the first variable is in the text -/
theorem begins_mem (neg : Bool) (s : Summand) (h : ¬ s.isConst) : ∃ c ∈ signText neg s, Begins c := by
  have hv : ∀ v vs, ∃ c ∈ Py.join ' ' ((v :: vs).map reprVP), Begins c := by
    intro v vs
    obtain ⟨c, r, e, hb⟩ := reprVP_first v
    refine ⟨c, ?_, hb⟩
    cases vs with
    | nil => show c ∈ reprVP v; rw [e]; simp
    | cons v' vs => show c ∈ reprVP v ++ _; rw [e]; simp
  cases s with
  | const n => exact absurd trivial h
  | plain v vs =>
    obtain ⟨c, hc, hb⟩ := hv v vs
    exact ⟨c, List.mem_append_right _ hc, hb⟩
  | times n v vs =>
    obtain ⟨c, hc, hb⟩ := hv v vs
    exact ⟨c, List.mem_append_right _ (List.mem_append_right _ (List.mem_cons_of_mem _ hc)), hb⟩

/-- the powers and the factor of a summand -/
def Summand.vps : Summand → List VarPow
  | .const _ => []
  | .plain v vs => v :: vs
  | .times _ v vs => v :: vs

def Summand.factor : Summand → Int
  | .const n => n
  | .plain _ _ => 1
  | .times n _ _ => n

theorem termOf_words {t : List Char} {neg : Bool} {s : Summand} {rest : List (List Char)} (hc : ¬ s.isConst)
    (h : Py.words t = signWords neg s ++ rest) : termOf t =
      match mapX vpOf ((Summand.vps s).map reprVP ++ rest) with
      | .error e => .error e
      | .ok vs => .ok ⟨vs, sgn neg * Summand.factor s⟩ := by
  have hd : ∀ n : Nat, intOf ((if neg then ['-'] else []) ++ Nat.toDigits 10 n) = some (sgn neg * n) := by
    intro n
    cases neg
    · show intOf (Nat.toDigits 10 n) = _
      rw [intOf_digits]; simp [sgn]
    · show intOf ('-' :: Nat.toDigits 10 n) = _
      rw [intOf_neg_digits]; simp [sgn]
  unfold termOf
  rw [h]
  cases s with
  | const n => exact absurd trivial hc
  | plain v vs =>
    obtain ⟨c, r, e, hb⟩ := reprVP_first v
    have hn : intOf ((if neg then ['-'] else []) ++ reprVP v) = none :=
      begins_none (List.mem_append_right _ (by rw [e]; simp)) hb
    simp only [signWords, Summand.words, List.map_cons, List.cons_append, hn]
    cases neg
    · have e2 : signWord ((if false = true then ['-'] else []) ++ reprVP v) = (1, reprVP v) := by
        show signWord (reprVP v) = _
        unfold signWord
        rw [e]
        split
        · next w' h' => exact absurd (List.cons.inj h').1 (tok_facts hb.1).2.2.1
        · rfl
      rw [e2]
      rfl
    · rfl
  | times n v vs =>
    simp only [signWords, Summand.words, List.map_cons, List.cons_append, hd]
    rfl

theorem readAs_sign (neg : Bool) (s : Summand) : ReadAs (signText neg s) (sgn neg, s) := by
  have hw := words_sign neg s [] (Or.inl rfl)
  rw [List.append_nil] at hw
  have e0 : Py.words [] = [] := rfl
  rw [e0] at hw
  cases s with
  | const n =>
    show intOf _ = _
    cases neg
    · show intOf (Nat.toDigits 10 n) = _
      rw [intOf_digits]; simp [sgn]
    · show intOf ('-' :: Nat.toDigits 10 n) = _
      rw [intOf_neg_digits]; simp [sgn]
  | plain v vs =>
    obtain ⟨c, hc, hb⟩ := begins_mem neg (.plain v vs) (by simp [Summand.isConst])
    refine ⟨begins_none hc hb, ?_⟩
    rw [termOf_words (by simp [Summand.isConst]) hw, List.append_nil, mapX_reprVP]
    simp [Summand.factor, Summand.vps]
  | times n v vs =>
    obtain ⟨c, hc, hb⟩ := begins_mem neg (.times n v vs) (by simp [Summand.isConst])
    refine ⟨begins_none hc hb, ?_⟩
    rw [termOf_words (by simp [Summand.isConst]) hw, List.append_nil, mapX_reprVP]
    simp [Summand.factor, Summand.vps]

/-- a difference with more than one summand is not a term -/
theorem termOf_diff {d : Diff} (hc : ¬ d.head.isConst) (hs : d.subs ≠ []) : termOf d.text = .error .value := by
  cases hd : d.subs with
  | nil => exact absurd hd hs
  | cons p l =>
    obtain ⟨pre, post, neg, s⟩ := p
    have ht : d.text = signText d.neg d.head ++ (blank (pre + 1) ++ ['-'] ++ ' ' :: (blank post ++ signText neg s ++ l.flatMap subText)) := by
      show signText d.neg d.head ++ d.subs.flatMap subText = _
      rw [hd]
      simp [subText, signText, blank, List.replicate_succ]
    have hw : Py.words d.text = signWords d.neg d.head ++ (['-'] :: Py.words (blank post ++ signText neg s ++ l.flatMap subText)) := by
      rw [ht, words_sign d.neg d.head (blank (pre + 1) ++ ['-'] ++ ' ' :: (blank post ++ signText neg s ++ l.flatMap subText))
        (Or.inr ⟨blank pre ++ ['-'] ++ ' ' :: (blank post ++ signText neg s ++ l.flatMap subText), rfl⟩), List.append_assoc, words_blank, words_cons _ _ (by simp) (by
        intro c hc; rw [List.mem_singleton.1 hc]; decide)]
    rw [termOf_words hc hw, mapX_error _ _ _ (by
      intro x hx
      obtain ⟨v, -, rfl⟩ := List.mem_map.1 hx
      exact ⟨_, vpOf_repr v⟩) (by rfl)]

/-! ## The last step -/

/-- the end of `Expression_from_string`, after the cutting (327-339) -/
def finish (terms : List (List Char)) : Except Exn RExpr :=
  match terms.getLast? with
  | none => .error .index
  | some t =>
    let p : Int × List (List Char) :=
      match intOf t with
      | some c => (c, terms.dropLast)
      | none => (0, terms)
    match mapX termOf p.2 with
    | .error e => .error e
    | .ok ts => .ok ⟨ts, p.1⟩

theorem readAs_term {t : List Char} {p : Int × Summand} (h : ReadAs t p) (hc : ¬ p.2.isConst) : ∃ r, termOf t = .ok r := by
  obtain ⟨σ, s⟩ := p
  cases s with
  | const n => exact absurd trivial hc
  | plain v vs => exact ⟨_, h.2⟩
  | times n v vs => exact ⟨_, h.2⟩

theorem mapX_read : ∀ {ts : List (List Char)} {l : List (Int × Summand)}, List.Forall₂ ReadAs ts l → (∀ p ∈ l, ¬ p.2.isConst) →
    mapX termOf ts = .ok (termsOf l) ∧ constOf l = 0
  | [], [], _, _ => ⟨rfl, rfl⟩
  | t :: ts, (σ, s) :: l, .cons h hl, hc => by
    obtain ⟨h1, h2⟩ := mapX_read hl (fun p hp => hc p (by simp [hp]))
    have := hc (σ, s) (by simp)
    cases s with
    | const n => exact absurd trivial this
    | plain v vs => simp only [mapX, h.2, h1, termsOf, constOf, h2]; exact ⟨trivial, trivial⟩
    | times n v vs => simp only [mapX, h.2, h1, termsOf, constOf, h2]; exact ⟨trivial, trivial⟩

theorem termsOf_append (l l' : List (Int × Summand)) : termsOf (l ++ l') = termsOf l ++ termsOf l' := by
  induction l with
  | nil => rfl
  | cons p l ih =>
    obtain ⟨σ, s⟩ := p
    cases s <;> simp [termsOf, ih]

theorem constOf_append (l l' : List (Int × Summand)) : constOf (l ++ l') = constOf l + constOf l' := by
  induction l with
  | nil => simp [constOf]
  | cons p l ih =>
    obtain ⟨σ, s⟩ := p
    cases s <;> simp [constOf, ih, add_assoc]

theorem forall2_last {α β : Type} {R : α → β → Prop} {p : β} : ∀ {l0 : List β} {ts : List α}, List.Forall₂ R ts (l0 ++ [p]) →
    ∃ ts0 t, List.Forall₂ R ts0 l0 ∧ R t p ∧ ts = ts0 ++ [t]
  | [], _, .cons h .nil => ⟨[], _, .nil, h, rfl⟩
  | q :: l0, _, .cons (a := a) h hl => by
    obtain ⟨ts0, t, h1, h2, rfl⟩ := forall2_last hl
    exact ⟨a :: ts0, t, .cons h h1, h2, rfl⟩

theorem finish_ok {ts : List (List Char)} {l : List (Int × Summand)} (h : List.Forall₂ ReadAs ts l) (hne : l ≠ [])
    (hc : ConstLast l) : finish ts = .ok (meaning l) := by
  obtain ⟨l0, p, rfl⟩ : ∃ l0 p, l = l0 ++ [p] := ⟨l.dropLast, l.getLast hne, (List.dropLast_append_getLast hne).symm⟩
  obtain ⟨ts0, t, hts0, ht, rfl⟩ : ∃ ts0 t, List.Forall₂ ReadAs ts0 l0 ∧ ReadAs t p ∧ ts = ts0 ++ [t] := by
    exact forall2_last h
  have hc0 : ∀ q ∈ l0, ¬ q.2.isConst := by simpa [ConstLast] using hc
  obtain ⟨m1, m2⟩ := mapX_read hts0 hc0
  unfold finish
  rw [List.getLast?_concat]
  obtain ⟨σ, s⟩ := p
  cases s with
  | const n =>
    have ht : intOf t = some (σ * n) := ht
    simp only [ht, List.dropLast_concat, m1, meaning, termsOf_append, constOf_append, m2, termsOf, constOf, List.append_nil,
      zero_add, add_zero]
  | plain v vs =>
    obtain ⟨m3, m4⟩ := mapX_read h (by
      intro q hq
      rcases List.mem_append.1 hq with hq | hq
      · exact hc0 q hq
      · rw [List.mem_singleton.1 hq]; simp [Summand.isConst])
    simp only [ht.1, m3, meaning, m4]
  | times n v vs =>
    obtain ⟨m3, m4⟩ := mapX_read h (by
      intro q hq
      rcases List.mem_append.1 hq with hq | hq
      · exact hc0 q hq
      · rw [List.mem_singleton.1 hq]; simp [Summand.isConst])
    simp only [ht.1, m3, meaning, m4]

theorem finish_error {xs : List (List Char)} {x : List Char} {ys : List (List Char)} {e : Exn} (hxs : ∀ t ∈ xs, ∃ r, termOf t = .ok r)
    (hx : termOf x = .error e) (hi : intOf x = none ∨ ys ≠ []) : finish (xs ++ x :: ys) = .error e := by
  unfold finish
  cases hg : (xs ++ x :: ys).getLast? with
  | none => simp at hg
  | some t =>
    dsimp only
    cases ht : intOf t with
    | none => simp only [mapX_error xs x ys hxs hx]
    | some c =>
      have hys : ys ≠ [] := by
        rcases hi with hi | hi
        · rintro rfl
          rw [List.getLast?_concat] at hg
          cases hg
          rw [hi] at ht; cases ht
        · exact hi
      have hd : (xs ++ x :: ys).dropLast = xs ++ x :: ys.dropLast := by
        rw [List.dropLast_append_of_ne_nil (by simp), List.dropLast_cons_of_ne_nil hys]
      simp only [hd, mapX_error xs x _ hxs hx]

/-! ## Cutting -/

theorem diff_text (d : Diff) : d.text = signText d.neg d.head ++ d.subs.flatMap subText := rfl

theorem subs_first (l : List (Nat × Nat × Bool × Summand)) : l.flatMap subText = [] ∨ ∃ r, l.flatMap subText = ' ' :: r := by
  cases l with
  | nil => exact Or.inl rfl
  | cons s l => exact Or.inr ⟨_, rfl⟩

/-- no plus sign in a difference -/
theorem diff_noPlus (d : Diff) : '+' ∉ d.text := by
  have hb : ∀ b : Bool, '+' ∉ (if b then ['-'] else [] : List Char) := by decide
  intro h
  rcases List.mem_append.1 h with h | h
  · rcases List.mem_append.1 h with h | h
    · exact hb _ h
    · exact (text_no _).1 h
  · obtain ⟨⟨pre, post, neg, s⟩, -, h⟩ := List.mem_flatMap.1 h
    rcases List.mem_append.1 h with h | h
    · exact (blank_no _).1 h
    · rcases List.mem_cons.1 h with h | h
      · exact absurd h (by decide)
      · rcases List.mem_append.1 h with h | h
        · exact (blank_no _).1 h
        · rcases List.mem_append.1 h with h | h
          · exact hb _ h
          · exact (text_no _).1 h

/-- the parts of a sum, with the spaces around them -/
def parts : Nat → List (Nat × Nat × Diff) → Diff → List (List Char)
  | a, [], last => [blank a ++ last.text]
  | a, (pre, post, d) :: ds, last => (blank a ++ d.text ++ blank pre) :: parts post ds last

theorem split_sum : ∀ (a : Nat) (ds : List (Nat × Nat × Diff)) (last : Diff),
    Py.split '+' (blank a ++ sumText ds last) = parts a ds last
  | a, [], last => split_noSep _ _ (by
      intro h
      rcases List.mem_append.1 h with h | h
      · exact (blank_no _).1 h
      · exact diff_noPlus _ h)
  | a, (pre, post, d) :: ds, last => by
    have e : blank a ++ sumText ((pre, post, d) :: ds) last = (blank a ++ d.text ++ blank pre) ++ '+' :: (blank post ++ sumText ds last) := by
      simp [sumText]
    rw [e, split_append, split_sum post ds last]
    · rfl
    · intro h
      rcases List.mem_append.1 h with h | h
      · rcases List.mem_append.1 h with h | h
        · exact (blank_no _).1 h
        · exact diff_noPlus _ h
      · exact (blank_no _).1 h

theorem subs_tight : ∀ (l : List (Nat × Nat × Bool × Summand)) (t : List Char), Tight t → Tight (t ++ l.flatMap subText)
  | [], t, h => by simpa using h
  | (pre, post, neg, s) :: l, t, h => by
    rw [List.flatMap_cons, ← List.append_assoc]
    refine subs_tight l _ ?_
    obtain ⟨⟨x, u, rfl, hx⟩, -⟩ := h
    obtain ⟨-, y, hy, hs⟩ := signText_tight neg s
    refine ⟨⟨x, u ++ subText (pre, post, neg, s), rfl, hx⟩, y, ?_, hs⟩
    have e : (x :: u) ++ subText (pre, post, neg, s) = ((x :: u) ++ blank (pre + 1) ++ '-' :: blank (post + 1)) ++ signText neg s := by
      simp [subText, signText]
    rw [e, List.getLast?_append, hy]
    rfl

theorem diff_tight (d : Diff) : Tight d.text := by
  rw [diff_text]
  exact subs_tight _ _ (signText_tight _ _)

theorem strip_parts : ∀ (a : Nat) (ds : List (Nat × Nat × Diff)) (last : Diff),
    (parts a ds last).map Py.strip = ds.map (fun d => d.2.2.text) ++ [last.text]
  | a, [], last => by
    have := strip_blank (diff_tight last) a 0
    simp only [parts, List.map_cons, List.map_nil, List.nil_append]
    rw [show Py.strip (blank a ++ last.text) = last.text by simpa [blank] using this]
  | a, (pre, post, d) :: ds, last => by
    simp only [parts, List.map_cons, List.cons_append, strip_blank (diff_tight d), strip_parts post ds last]

theorem exprOf_eq {s : List Char} (hs : ∃ c r, s = c :: r ∧ c ≠ '(') {ps : List (List Char)} {p : List Char}
    (h : (Py.split '+' s).map Py.strip = ps ++ [p]) : exprOf s = finish (ps ++ lastTerms p) ∧
    exprOf ('(' :: s ++ [')']) = finish (ps ++ lastTerms p) := by
  have hd : (ps ++ [p]).dropLast ++ lastTerms ((ps ++ [p]).getLastD []) = ps ++ lastTerms p := by
    rw [List.dropLast_concat, List.getLastD_eq_getLast?, List.getLast?_concat]
    rfl
  constructor
  · obtain ⟨c, r, rfl, hc⟩ := hs
    unfold exprOf finish
    simp only [if_neg hc, h, hd]
    rfl
  · show exprOf ('(' :: (s ++ [')'])) = _
    unfold exprOf finish
    have hl : (ps ++ [p]).getLastD [] = p := by
      rw [List.getLastD_eq_getLast?, List.getLast?_concat]; rfl
    simp only [if_pos, List.dropLast_concat, h, hl]
    rfl

/-- the pieces of a difference -/
theorem split_minus : ∀ (l : List (Nat × Nat × Bool × Summand)) (a : Nat) (h : Summand),
    (Py.split '-' (blank a ++ h.text ++ l.flatMap subText)).map Py.strip =
      h.text :: l.flatMap fun s => (if s.2.2.1 then [[]] else []) ++ [s.2.2.2.text]
  | [], a, h => by
    rw [List.flatMap_nil, List.append_nil, split_noSep _ _ (by
      intro hm
      rcases List.mem_append.1 hm with hm | hm
      · exact (blank_no _).2 hm
      · exact (text_no _).2 hm)]
    have := strip_blank (text_tight h) a 0
    simp only [List.map_cons, List.map_nil, List.flatMap_nil]
    rw [show Py.strip (blank a ++ h.text) = h.text by simpa [blank] using this]
  | (pre, post, neg, s) :: l, a, h => by
    have e : blank a ++ h.text ++ ((pre, post, neg, s) :: l).flatMap subText =
        (blank a ++ h.text ++ blank (pre + 1)) ++ '-' :: (blank (post + 1) ++ signText neg s ++ l.flatMap subText) := by
      simp [subText, signText]
    have hm : '-' ∉ blank a ++ h.text ++ blank (pre + 1) := by
      intro hm
      rcases List.mem_append.1 hm with hm | hm
      · rcases List.mem_append.1 hm with hm | hm
        · exact (blank_no _).2 hm
        · exact (text_no _).2 hm
      · exact (blank_no _).2 hm
    rw [e, split_append _ _ _ hm, List.map_cons, strip_blank (text_tight h), List.flatMap_cons]
    congr 1
    cases neg
    · have := split_minus l (post + 1) s
      simpa [signText] using this
    · have e2 : blank (post + 1) ++ signText true s ++ l.flatMap subText =
          blank (post + 1) ++ '-' :: (blank 0 ++ s.text ++ l.flatMap subText) := by
        simp [signText, blank]
      rw [e2, split_append _ _ _ (blank_no _).2, List.map_cons, strip_blanks, split_minus l 0 s]
      rfl

theorem split_diff (d : Diff) : (Py.split '-' d.text).map Py.strip =
    (if d.neg then [[]] else []) ++ d.head.text :: d.subs.flatMap fun s => (if s.2.2.1 then [[]] else []) ++ [s.2.2.2.text] := by
  have h0 := split_minus d.subs 0 d.head
  unfold Diff.text
  cases d.neg
  · simpa [blank] using h0
  · have e : (if true = true then ['-'] else []) ++ d.head.text ++ d.subs.flatMap subText =
        [] ++ '-' :: (d.head.text ++ d.subs.flatMap subText) := by simp
    rw [e, split_append _ _ _ (by simp), List.map_cons]
    have : blank 0 ++ d.head.text ++ d.subs.flatMap subText = d.head.text ++ d.subs.flatMap subText := by simp [blank]
    rw [this] at h0
    rw [h0]
    rfl

theorem text_ne (s : Summand) : s.text ≠ [] := by
  obtain ⟨⟨x, u, h, -⟩, -⟩ := text_tight s
  rw [h]; simp

theorem drop_first {t : List Char} (h : t ≠ []) (l : List (List Char)) :
    (match t :: l with | [] :: l => l | l => l) = t :: l := by
  cases t with
  | nil => exact absurd rfl h
  | cons x u => rfl

/-- the differences that are single summands are read as such -/
theorem read_diffs : ∀ (ds : List (Nat × Nat × Diff)), (∀ d ∈ ds, d.2.2.subs = []) →
    List.Forall₂ ReadAs (ds.map fun d => d.2.2.text) (ds.flatMap fun d => d.2.2.signed)
  | [], _ => .nil
  | (a, b, d) :: ds, h => by
    have hs : d.subs = [] := h (a, b, d) (by simp)
    have e1 : d.text = signText d.neg d.head := by rw [diff_text, hs]; simp
    have e2 : d.signed = [(sgn d.neg, d.head)] := by unfold Diff.signed; rw [hs]; rfl
    simp only [List.map_cons, List.flatMap_cons, e1, e2]
    exact .cons (readAs_sign _ _) (read_diffs ds (fun d hd => h d (by simp [hd])))

theorem read_unsigned (s : Summand) : ReadAs s.text (1, s) := readAs_sign false s

/-- the last difference, if it has at most one minus sign -/
theorem last_one {d : Diff} (h : d.signs ≤ 1) : List.Forall₂ ReadAs (lastTerms d.text) d.signed := by
  have hs := split_diff d
  obtain ⟨neg, head, subs⟩ := d
  unfold lastTerms
  rw [hs]
  have hh : head.text ≠ [] := text_ne head
  cases subs with
  | nil =>
    cases neg
    · have e : (match (match [head.text] with | [a, b] => [a, '-' :: b] | l => l) with | [] :: l => l | l => l) = [head.text] :=
        drop_first hh []
      show List.Forall₂ ReadAs (match (match [head.text] with | [a, b] => [a, '-' :: b] | l => l) with | [] :: l => l | l => l)
        [(1, head)]
      rw [e]
      exact .cons (readAs_sign false head) .nil
    · exact .cons (readAs_sign true head) .nil
  | cons p subs =>
    obtain ⟨pre, post, ng, s⟩ := p
    cases neg
    · cases ng
      · cases subs with
        | nil =>
          show List.Forall₂ ReadAs (match [head.text, '-' :: s.text] with | [] :: l => l | l => l) [(1, head), (-1, s)]
          rw [drop_first hh]
          exact .cons (readAs_sign false head) (.cons (readAs_sign true s) .nil)
        | cons q subs =>
          exfalso
          obtain ⟨_, _, b, _⟩ := q
          cases b <;> simp [Diff.signs] at h
      · exact absurd h (by simp [Diff.signs]; omega)
    · exact absurd h (by cases ng <;> simp [Diff.signs])

theorem flatMap_single (subs : List (Nat × Nat × Bool × Summand)) (h : ∀ s ∈ subs, s.2.2.1 = false) :
    (subs.flatMap fun s => (if s.2.2.1 then [[]] else []) ++ [s.2.2.2.text]) = subs.map fun s => s.2.2.2.text := by
  induction subs with
  | nil => rfl
  | cons s subs ih =>
    rw [List.flatMap_cons, ih (fun t ht => h t (by simp [ht])), h s (by simp)]
    rfl

theorem signs_length (d : Diff) (h : ∀ s ∈ d.subs, s.2.2.1 = false) : d.signs = (if d.neg then 1 else 0) + d.subs.length := by
  unfold Diff.signs
  congr 1
  generalize d.subs = l at h
  induction l with
  | nil => rfl
  | cons s l ih =>
    rw [List.map_cons, List.sum_cons, ih (fun t ht => h t (by simp [ht])), h s (by simp), List.length_cons]
    simp; omega

theorem last_lost_eq {d : Diff} (h : 2 ≤ d.signs) (hs : ∀ s ∈ d.subs, s.2.2.1 = false) :
    lastTerms d.text = d.head.text :: d.subs.map fun s => s.2.2.2.text := by
  rw [signs_length d hs] at h
  have hd := split_diff d
  rw [flatMap_single _ hs] at hd
  obtain ⟨neg, head, subs⟩ := d
  unfold lastTerms
  rw [hd]
  have hh : head.text ≠ [] := text_ne head
  cases neg
  · match subs, h with
    | s1 :: s2 :: subs, _ =>
      show (match head.text :: s1.2.2.2.text :: s2.2.2.2.text :: subs.map (fun s => s.2.2.2.text) with | [] :: l => l | l => l) = _
      rw [drop_first hh]
      rfl
    | [], h => simp at h
    | [_], h => simp at h
  · match subs, h with
    | s1 :: subs, _ => rfl
    | [], h => simp at h

/-- the last difference, if it has more -/
theorem last_lost {d : Diff} (h : 2 ≤ d.signs) (hs : ∀ s ∈ d.subs, s.2.2.1 = false) :
    List.Forall₂ ReadAs (lastTerms d.text) d.unsigned := by
  rw [last_lost_eq h hs]
  unfold Diff.unsigned
  refine .cons (read_unsigned _) ?_
  generalize d.subs = l
  induction l with
  | nil => exact .nil
  | cons s l ih => exact .cons (read_unsigned _) ih

/-- an empty piece between two minus signs -/
theorem last_double {d : Diff} (h : ∃ s ∈ d.subs, s.2.2.1 = true) (hc : ConstLast d.signed) :
    ∃ xs ys, lastTerms d.text = xs ++ [] :: ys ∧ ys ≠ [] ∧ ∀ t ∈ xs, ∃ r, termOf t = .ok r := by
  have hd := split_diff d
  obtain ⟨neg, head, subs⟩ := d
  have hh : head.text ≠ [] := text_ne head
  dsimp only at hd h
  -- the pieces after the head
  have key : ∀ subs : List (Nat × Nat × Bool × Summand), (∃ s ∈ subs, s.2.2.1 = true) →
      (∀ s ∈ subs.dropLast, ¬ s.2.2.2.isConst) → ∃ xs ys,
        (subs.flatMap fun s => (if s.2.2.1 then [[]] else []) ++ [s.2.2.2.text]) = xs ++ [] :: ys ∧ ys ≠ [] ∧
        ∀ t ∈ xs, ∃ r, termOf t = .ok r := by
    intro subs
    induction subs with
    | nil => rintro ⟨s, hs, -⟩; cases hs
    | cons s subs ih =>
      intro hex hcs
      cases hb : s.2.2.1 with
      | true => exact ⟨[], s.2.2.2.text :: _, by rw [List.flatMap_cons, hb]; rfl, by simp, by simp⟩
      | false =>
        have hex' : ∃ t ∈ subs, t.2.2.1 = true := by
          obtain ⟨t, ht, htb⟩ := hex
          rcases List.mem_cons.1 ht with rfl | ht
          · rw [hb] at htb; cases htb
          · exact ⟨t, ht, htb⟩
        have hne : subs ≠ [] := by rintro rfl; obtain ⟨t, ht, -⟩ := hex'; cases ht
        rw [List.dropLast_cons_of_ne_nil hne] at hcs
        obtain ⟨xs, ys, h1, h2, h3⟩ := ih hex' (fun t ht => hcs t (by simp [ht]))
        refine ⟨s.2.2.2.text :: xs, ys, by rw [List.flatMap_cons, hb, h1]; rfl, h2, ?_⟩
        intro t ht
        rcases List.mem_cons.1 ht with rfl | ht
        · exact readAs_term (read_unsigned _) (hcs s (by simp))
        · exact h3 t ht
  have hne : subs ≠ [] := by rintro rfl; obtain ⟨t, ht, -⟩ := h; cases ht
  have hcl : ¬ head.isConst ∧ ∀ s ∈ subs.dropLast, ¬ s.2.2.2.isConst := by
    have e : (Diff.signed ⟨neg, head, subs⟩).dropLast = ((if neg then -1 else 1), head) ::
        (subs.dropLast.map fun s => ((if s.2.2.1 then 1 else -1), s.2.2.2)) := by
      unfold Diff.signed
      rw [List.dropLast_cons_of_ne_nil (by simpa using hne), List.map_dropLast]
    unfold ConstLast at hc
    rw [e] at hc
    exact ⟨hc (_, head) List.mem_cons_self, fun s hs => hc _ (List.mem_cons_of_mem _ (List.mem_map_of_mem hs))⟩
  obtain ⟨xs, ys, h1, h2, h3⟩ := key subs h hcl.2
  rw [h1] at hd
  refine ⟨head.text :: xs, ys, ?_, h2, ?_⟩
  · unfold lastTerms
    rw [hd]
    cases ys with
    | nil => exact absurd rfl h2
    | cons y ys =>
      cases neg
      · cases xs with
        | nil =>
          show (match head.text :: [] :: y :: ys with | [] :: l => l | l => l) = _
          rw [drop_first hh]
          rfl
        | cons x xs =>
          have e : (match head.text :: x :: (xs ++ [] :: y :: ys) with | [a, b] => [a, '-' :: b] | l => l) =
              head.text :: x :: (xs ++ [] :: y :: ys) := by
            cases xs <;> rfl
          show (match (match head.text :: x :: (xs ++ [] :: y :: ys) with | [a, b] => [a, '-' :: b] | l => l) with
            | [] :: l => l | l => l) = _
          rw [e, drop_first hh]
          rfl
      · cases xs <;> rfl
  · intro t ht
    rcases List.mem_cons.1 ht with rfl | ht
    · exact readAs_term (read_unsigned _) hcl.1
    · exact h3 t ht

theorem lastTerms_ne (d : Diff) : lastTerms d.text ≠ [] := by
  by_cases h : ∃ s ∈ d.subs, s.2.2.1 = true
  · have hd := split_diff d
    unfold lastTerms
    rw [hd]
    obtain ⟨neg, head, subs⟩ := d
    have hh : head.text ≠ [] := text_ne head
    cases neg
    · intro hn
      dsimp only at hn
      revert hn
      generalize (subs.flatMap fun s => (if s.2.2.1 then [[]] else []) ++ [s.2.2.2.text]) = r
      intro hn
      match r, hn with
      | [], hn =>
        have : (match [head.text] with | [] :: l => l | l => l) = [] := hn
        rw [drop_first hh] at this; cases this
      | [b], hn =>
        have : (match [head.text, '-' :: b] with | [] :: l => l | l => l) = [] := hn
        rw [drop_first hh] at this; cases this
      | b :: c :: r, hn =>
        have : (match head.text :: b :: c :: r with | [] :: l => l | l => l) = [] := hn
        rw [drop_first hh] at this; cases this
    · generalize (subs.flatMap fun s => (if s.2.2.1 then [[]] else []) ++ [s.2.2.2.text]) = r
      cases r <;> simp
  · have h' : ∀ s ∈ d.subs, s.2.2.1 = false := fun s hs => by
      cases hb : s.2.2.1
      · rfl
      · exact absurd ⟨s, hs, hb⟩ h
    rcases Nat.lt_or_ge d.signs 2 with h2 | h2
    · intro hn
      have := last_one (d := d) (by omega)
      rw [hn] at this
      unfold Diff.signed at this
      cases this
    · rw [last_lost_eq h2 h']
      simp

theorem sum_parts (ds : List (Nat × Nat × Diff)) (last : Diff) :
    exprOf (sumText ds last) = finish (ds.map (fun d => d.2.2.text) ++ lastTerms last.text) ∧
    exprOf ('(' :: sumText ds last ++ [')']) = finish (ds.map (fun d => d.2.2.text) ++ lastTerms last.text) := by
  refine exprOf_eq ?_ ?_
  · have hf : ∀ d : Diff, ∀ r, ∃ c u, d.text ++ r = c :: u ∧ c ≠ '(' := by
      intro d r
      have hs : ∃ c u, signText d.neg d.head = c :: u ∧ c ≠ '(' := by
        cases d.neg
        · obtain ⟨⟨x, u, hx, hsp⟩, -⟩ := text_tight d.head
          refine ⟨x, u, hx, ?_⟩
          rcases text_chars d.head x (by rw [hx]; simp) with rfl | h
          · exact absurd hsp (by decide)
          · exact (tok_facts h).2.2.2
        · exact ⟨'-', _, rfl, by decide⟩
      obtain ⟨c, u, h, hc⟩ := hs
      exact ⟨c, u ++ d.subs.flatMap subText ++ r, by rw [diff_text, h]; simp, hc⟩
    cases ds with
    | nil =>
      have := hf last []
      rwa [List.append_nil] at this
    | cons d ds =>
      obtain ⟨pre, post, d⟩ := d
      show ∃ c r, d.text ++ blank pre ++ '+' :: (blank post ++ sumText ds last) = c :: r ∧ c ≠ '('
      rw [List.append_assoc]
      exact hf d _
  · have := split_sum 0 ds last
    rw [show blank 0 ++ sumText ds last = sumText ds last from rfl] at this
    rw [this, strip_parts]

/-! ## Printed expressions -/

theorem split_joinPlus : ∀ (a : Nat) (ts : List (List Char)), ts ≠ [] → (∀ t ∈ ts, Tight t ∧ '+' ∉ t) →
    (Py.split '+' (blank a ++ joinPlus ts)).map Py.strip = ts
  | _, [], h, _ => absurd rfl h
  | a, [t], _, h => by
    obtain ⟨h1, h2⟩ := h t (by simp)
    show (Py.split '+' (blank a ++ t)).map Py.strip = [t]
    rw [split_noSep _ _ (by
      intro hm
      rcases List.mem_append.1 hm with hm | hm
      · exact (blank_no _).1 hm
      · exact h2 hm)]
    have := strip_blank h1 a 0
    simp only [List.map_cons, List.map_nil]
    rw [show Py.strip (blank a ++ t) = t by simpa [blank] using this]
  | a, t :: t' :: ts, _, h => by
    obtain ⟨h1, h2⟩ := h t (by simp)
    have e : blank a ++ joinPlus (t :: t' :: ts) = (blank a ++ t ++ blank 1) ++ '+' :: (blank 1 ++ joinPlus (t' :: ts)) := by
      show blank a ++ (t ++ [' ', '+', ' '] ++ joinPlus (t' :: ts)) = _
      simp [blank]
    rw [e, split_append, List.map_cons, strip_blank h1, split_joinPlus 1 (t' :: ts) (by simp) (fun x hx => h x (by simp [hx]))]
    intro hm
    rcases List.mem_append.1 hm with hm | hm
    · rcases List.mem_append.1 hm with hm | hm
      · exact (blank_no _).1 hm
      · exact h2 hm
    · exact (blank_no _).1 hm

theorem exprOf_join (ts : List (List Char)) (hne : ts ≠ []) (h : ∀ t ∈ ts, Tight t ∧ '+' ∉ t) (hf : ∀ t ∈ ts, t.head? ≠ some '(') :
    exprOf (joinPlus ts) = finish (ts.dropLast ++ lastTerms (ts.getLast hne)) ∧
    exprOf ('(' :: joinPlus ts ++ [')']) = finish (ts.dropLast ++ lastTerms (ts.getLast hne)) := by
  refine exprOf_eq ?_ ?_
  · cases ts with
    | nil => exact absurd rfl hne
    | cons t ts =>
      obtain ⟨⟨⟨x, u, rfl, -⟩, -⟩, -⟩ := h t (by simp)
      have hx : x ≠ '(' := fun e => hf (x :: u) (by simp) (by rw [e]; rfl)
      cases ts with
      | nil => exact ⟨x, u, rfl, hx⟩
      | cons t' ts => exact ⟨x, _, rfl, hx⟩
  · rw [List.dropLast_append_getLast hne]
    exact split_joinPlus 0 ts hne h

theorem lastTerms_sign (neg : Bool) (s : Summand) : lastTerms (signText neg s) = [signText neg s] := by
  have hs := split_diff ⟨neg, s, []⟩
  have e : Diff.text ⟨neg, s, []⟩ = signText neg s := by rw [diff_text]; simp
  rw [e] at hs
  unfold lastTerms
  rw [hs]
  cases neg
  · show (match [s.text] with | [] :: l => l | l => l) = _
    rw [drop_first (text_ne s)]
    rfl
  · rfl

theorem signText_ok (neg : Bool) (s : Summand) : (Tight (signText neg s) ∧ '+' ∉ signText neg s) ∧
    (signText neg s).head? ≠ some '(' := by
  refine ⟨⟨signText_tight neg s, ?_⟩, ?_⟩
  · intro h
    rcases List.mem_append.1 h with h | h
    · cases neg <;> simp at h
    · exact (text_no s).1 h
  · cases neg
    · obtain ⟨⟨x, u, hx, hsp⟩, -⟩ := text_tight s
      show s.text.head? ≠ _
      rw [hx]
      intro e
      have e : x = '(' := by simpa using e
      subst e
      rcases text_chars s '(' (by rw [hx]; simp) with h | h
      · exact absurd h (by decide)
      · exact (tok_facts h).2.2.2 rfl
    · show some '-' ≠ some '('
      decide

/-- the summand that a term with an integer is printed as -/
theorem reprTerm_sign {t : Term Scalar} {z : Int} (hv : t.vars ≠ []) (hz : t.coef.val = z)
    (hf : ∀ q, t.coef = .frac q → q = 1 ∨ q = -1) : ∃ neg s, reprTerm t = signText neg s ∧ ¬ s.isConst ∧
      termsOf [(sgn neg, s)] = [⟨t.vars.map fun v => ((v.var : Int), (v.pow : Int)), z⟩] ∧ constOf [(sgn neg, s)] = 0 := by
  obtain ⟨vars, coef⟩ := t
  dsimp only at hv hz hf
  cases vars with
  | nil => exact absurd rfl hv
  | cons v vs =>
    unfold reprTerm
    dsimp only
    by_cases h1 : coef.val = 1
    · rw [if_pos h1]
      have : z = 1 := by rw [hz] at h1; exact_mod_cast h1
      subst this
      exact ⟨false, .plain v vs, rfl, by simp [Summand.isConst], by simp [termsOf, sgn], rfl⟩
    · rw [if_neg h1]
      by_cases h2 : coef.val = -1
      · rw [if_pos h2]
        have : z = -1 := by rw [hz] at h2; exact_mod_cast h2
        subst this
        exact ⟨true, .plain v vs, rfl, by simp [Summand.isConst], by simp [termsOf, sgn], rfl⟩
      · rw [if_neg h2]
        cases coef with
        | frac q => rcases hf q rfl with rfl | rfl <;> simp [Scalar.val] at h1 h2
        | int w =>
          have : z = w := by simpa [Scalar.val] using hz.symm
          subst this
          unfold reprScalar reprInt
          dsimp only
          split
          · next hneg =>
            refine ⟨true, .times z.natAbs v vs, rfl, by simp [Summand.isConst], ?_, rfl⟩
            have : (-(1 : Int)) * (z.natAbs : Int) = z := by omega
            show [RTerm.mk _ ((-1 : Int) * (z.natAbs : Int))] = _
            rw [this]
          · next hneg =>
            refine ⟨false, .times z.natAbs v vs, rfl, by simp [Summand.isConst], ?_, rfl⟩
            have : (1 : Int) * (z.natAbs : Int) = z := by omega
            show [RTerm.mk _ ((1 : Int) * (z.natAbs : Int))] = _
            rw [this]

theorem reprInt_sign (z : Int) : ∃ neg s, reprInt z = signText neg s ∧ termsOf [(sgn neg, s)] = [] ∧ constOf [(sgn neg, s)] = z := by
  unfold reprInt
  split
  · next h => exact ⟨true, .const z.natAbs, rfl, rfl, show (-1 : Int) * (z.natAbs : Int) + 0 = z by omega⟩
  · next h => exact ⟨false, .const z.natAbs, rfl, rfl, show (1 : Int) * (z.natAbs : Int) + 0 = z by omega⟩

/-! ### Fractions -/

def fracText (q : Rat) : List Char := reprScalar (.frac q)

/-- what stands after the fraction: nothing, or variables -/
def AfterFrac (r : List Char) : Prop := r = [] ∨ ∃ v vs, r = ' ' :: Py.join ' ' ((v :: vs : List VarPow).map reprVP)

theorem afterFrac_chars {r : List Char} (h : AfterFrac r) : ∀ c ∈ r, c = ' ' ∨ Tok c := by
  rcases h with rfl | ⟨v, vs, rfl⟩
  · intro c hc; cases hc
  · intro c hc
    rcases List.mem_cons.1 hc with h | hc
    · exact Or.inl h
    · exact text_chars (.plain v vs) c hc

theorem reprInt_chars (z : Int) : ∀ c ∈ reprInt z, c = '-' ∨ c ∈ Py.digits := by
  intro c hc
  unfold reprInt at hc
  split at hc
  · rcases List.mem_cons.1 hc with h | hc
    · exact Or.inl h
    · exact Or.inr (digits_tok hc)
  · exact Or.inr (digits_tok hc)

theorem fracText_eq (q : Rat) (r : List Char) : fracText q ++ r =
    ("Fraction(".toList ++ reprInt q.num ++ [',']) ++ ' ' :: (Nat.toDigits 10 q.den ++ [')'] ++ r) := by
  show ("Fraction(".toList ++ reprInt q.num ++ [',', ' '] ++ Nat.toDigits 10 q.den ++ [')']) ++ r = _
  simp

theorem fracHead_chars (q : Rat) : ∀ c ∈ "Fraction(".toList ++ reprInt q.num ++ [','], Py.isSpace c = false ∧ c ≠ '^' ∧ c ≠ '+' := by
  have hd : ∀ c ∈ Py.digits, Py.isSpace c = false ∧ c ≠ '^' ∧ c ≠ '+' := by decide
  have h1 : ∀ c ∈ "Fraction(".toList, Py.isSpace c = false ∧ c ≠ '^' ∧ c ≠ '+' := by decide
  intro c hc
  rcases List.mem_append.1 hc with hc | hc
  · rcases List.mem_append.1 hc with hc | hc
    · exact h1 c hc
    · rcases reprInt_chars _ c hc with rfl | h
      · decide
      · exact hd c h
  · rw [List.mem_singleton.1 hc]; decide

theorem termOf_frac (q : Rat) (r : List Char) : termOf (fracText q ++ r) = .error .value := by
  have hh := fracHead_chars q
  have hw : Py.words (fracText q ++ r) = ("Fraction(".toList ++ reprInt q.num ++ [',']) ::
      Py.words (Nat.toDigits 10 q.den ++ [')'] ++ r) := by
    rw [fracText_eq, words_cons _ _ (by simp) (fun c hc => (hh c hc).1)]
  have hi : intOf ("Fraction(".toList ++ reprInt q.num ++ [',']) = none :=
    intOf_none (c := 'F') (by simp) (by decide) (by decide) (by decide) (by decide)
  have hv : vpOf ("Fraction(".toList ++ reprInt q.num ++ [',']) = .error .value := by
    unfold vpOf
    rw [split_noSep _ _ (fun h => (hh _ h).2.1 rfl)]
    rfl
  have hs : signWord ("Fraction(".toList ++ reprInt q.num ++ [',']) = (1, "Fraction(".toList ++ reprInt q.num ++ [',']) := rfl
  unfold termOf
  rw [hw]
  simp only [hi, hs, mapX, hv]

theorem intOf_frac (q : Rat) (r : List Char) : intOf (fracText q ++ r) = none :=
  intOf_none (c := 'F') (by rw [fracText_eq]; simp) (by decide) (by decide) (by decide) (by decide)

theorem frac_tight (q : Rat) {r : List Char} (hr : AfterFrac r) : Tight (fracText q ++ r) := by
  refine ⟨⟨'F', _, rfl, by decide⟩, ?_⟩
  rcases hr with rfl | ⟨v, vs, rfl⟩
  · refine ⟨')', ?_, by decide⟩
    rw [List.append_nil]
    show ("Fraction(".toList ++ reprInt q.num ++ ", ".toList ++ Nat.toDigits 10 q.den ++ [')']).getLast? = _
    rw [List.getLast?_concat]
  · obtain ⟨-, y, hy, hs⟩ := text_tight (.plain v vs)
    refine ⟨y, ?_, hs⟩
    have hy : (Py.join ' ' ((v :: vs).map reprVP)).getLast? = some y := hy
    rw [List.getLast?_append]
    have : (' ' :: Py.join ' ' ((v :: vs).map reprVP)).getLast? = some y := by
      cases hj : Py.join ' ' ((v :: vs).map reprVP) with
      | nil => rw [hj] at hy; cases hy
      | cons a l => rw [List.getLast?_cons_cons, ← hj]; exact hy
    rw [this]
    rfl

theorem frac_rest (q : Rat) {r : List Char} (hr : AfterFrac r) : ∀ c ∈ Nat.toDigits 10 q.den ++ [')'] ++ r, c ≠ '-' ∧ c ≠ '+' := by
  have hd : ∀ c ∈ Py.digits, c ≠ '-' ∧ c ≠ '+' := by decide
  intro c hc
  rcases List.mem_append.1 hc with hc | hc
  · rcases List.mem_append.1 hc with hc | hc
    · exact hd c (digits_tok hc)
    · rw [List.mem_singleton.1 hc]; decide
  · rcases afterFrac_chars hr c hc with rfl | h
    · decide
    · exact ⟨(tok_facts h).2.2.1, (tok_facts h).2.1⟩

theorem frac_ok (q : Rat) {r : List Char} (hr : AfterFrac r) : (Tight (fracText q ++ r) ∧ '+' ∉ fracText q ++ r) ∧
    (fracText q ++ r).head? ≠ some '(' := by
  refine ⟨⟨frac_tight q hr, ?_⟩, ?_⟩
  · rw [fracText_eq]
    intro h
    rcases List.mem_append.1 h with h | h
    · exact (fracHead_chars q _ h).2.2 rfl
    · rcases List.mem_cons.1 h with h | h
      · exact absurd h (by decide)
      · exact (frac_rest q hr _ h).2 rfl
  · show some 'F' ≠ some '('
    decide

/-- the last summand is a fraction -/
theorem lastTerms_frac (q : Rat) {r : List Char} (hr : AfterFrac r) : ∃ x ys, lastTerms (fracText q ++ r) = x :: ys ∧
    termOf x = .error .value ∧ (intOf x = none ∨ ys ≠ []) := by
  have hdig : ∀ n, '-' ∉ Nat.toDigits 10 n := fun n h => by
    have := digits_tok h
    revert this; decide
  by_cases hq : q.num < 0
  · have e : fracText q ++ r = "Fraction(".toList ++ '-' :: (Nat.toDigits 10 q.num.natAbs ++ [','] ++ ' ' :: (Nat.toDigits 10 q.den ++ [')'] ++ r)) := by
      rw [fracText_eq]
      unfold reprInt
      rw [if_pos hq]
      simp
    have hm : '-' ∉ Nat.toDigits 10 q.num.natAbs ++ [','] ++ ' ' :: (Nat.toDigits 10 q.den ++ [')'] ++ r) := by
      intro h
      rcases List.mem_append.1 h with h | h
      · rcases List.mem_append.1 h with h | h
        · exact hdig _ h
        · exact absurd (List.mem_singleton.1 h) (by decide)
      · rcases List.mem_cons.1 h with h | h
        · exact absurd h (by decide)
        · exact (frac_rest q hr _ h).1 rfl
    have hs : Py.split '-' (fracText q ++ r) = ["Fraction(".toList, Nat.toDigits 10 q.num.natAbs ++ [','] ++ ' ' :: (Nat.toDigits 10 q.den ++ [')'] ++ r)] := by
      rw [e, split_two _ _ (by decide) hm]
    refine ⟨"Fraction(".toList, ['-' :: Py.strip (Nat.toDigits 10 q.num.natAbs ++ [','] ++ ' ' :: (Nat.toDigits 10 q.den ++ [')'] ++ r))], ?_,
      by decide, Or.inr (by simp)⟩
    unfold lastTerms
    rw [hs]
    rfl
  · have hm : '-' ∉ fracText q ++ r := by
      rw [fracText_eq]
      unfold reprInt
      rw [if_neg hq]
      intro h
      rcases List.mem_append.1 h with h | h
      · rcases List.mem_append.1 h with h | h
        · rcases List.mem_append.1 h with h | h
          · exact absurd h (by decide)
          · exact hdig _ h
        · exact absurd (List.mem_singleton.1 h) (by decide)
      · rcases List.mem_cons.1 h with h | h
        · exact absurd h (by decide)
        · exact (frac_rest q hr _ h).1 rfl
    have hst : Py.strip (fracText q ++ r) = fracText q ++ r := by
      have := strip_blank (frac_tight q hr) 0 0
      simpa [blank] using this
    refine ⟨fracText q ++ r, [], ?_, termOf_frac q r, Or.inl (intOf_frac q r)⟩
    unfold lastTerms
    rw [split_noSep _ _ hm]
    simp only [List.map_cons, List.map_nil, hst]
    exact drop_first (t := fracText q ++ r) (by rw [fracText_eq]; simp) []

/-- a list of summands of which one, the first, is a fraction -/
theorem finish_frac {xs : List (List Char)} {q : Rat} {r : List Char} (hr : AfterFrac r) {ys : List (List Char)}
    (hxs : ∀ t ∈ xs, ∃ v, termOf t = .ok v) (hne : xs ++ (fracText q ++ r) :: ys ≠ []) :
    finish ((xs ++ (fracText q ++ r) :: ys).dropLast ++ lastTerms ((xs ++ (fracText q ++ r) :: ys).getLast hne)) = .error .value := by
  by_cases hy : ys = []
  · subst hy
    obtain ⟨x, zs, h1, h2, h3⟩ := lastTerms_frac q hr
    rw [List.dropLast_concat]
    simp only [List.getLast_concat]
    rw [h1]
    exact finish_error hxs h2 h3
  · rw [List.dropLast_append_of_ne_nil (by simp), List.dropLast_cons_of_ne_nil hy, List.append_assoc, List.cons_append]
    exact finish_error hxs (termOf_frac q r) (Or.inl (intOf_frac q r))

theorem first_of {α : Type} {P : α → Prop} : ∀ (l : List α), (∃ x ∈ l, P x) → ∃ a x b, l = a ++ x :: b ∧ P x ∧ ∀ y ∈ a, ¬ P y
  | [], h => by obtain ⟨x, hx, -⟩ := h; cases hx
  | y :: l, h => by
    by_cases hy : P y
    · exact ⟨[], y, l, rfl, hy, by simp⟩
    · obtain ⟨x, hx, hp⟩ := h
      rcases List.mem_cons.1 hx with rfl | hx
      · exact absurd hp hy
      · obtain ⟨a, z, b, rfl, h1, h2⟩ := first_of l ⟨x, hx, hp⟩
        refine ⟨y :: a, z, b, rfl, h1, ?_⟩
        intro w hw
        rcases List.mem_cons.1 hw with rfl | hw
        · exact hy
        · exact h2 w hw

/-- the summands that are printed -/
def chunks (e : Expr Scalar) : List (List Char) :=
  e.terms.map reprTerm ++ if e.terms = [] ∨ e.const.val ≠ 0 then [reprScalar e.const] else []

theorem chunks_ne (e : Expr Scalar) : chunks e ≠ [] := by
  unfold chunks
  by_cases h : e.terms = []
  · simp [h]
  · simp [h]

theorem joinPlus_concat : ∀ (ts : List (List Char)) (t : List Char), ts ≠ [] →
    joinPlus (ts ++ [t]) = joinPlus ts ++ " + ".toList ++ t
  | [], _, h => absurd rfl h
  | [u], t, _ => rfl
  | u :: u' :: ts, t, _ => by
    show u ++ " + ".toList ++ joinPlus ((u' :: ts) ++ [t]) = (u ++ " + ".toList ++ joinPlus (u' :: ts)) ++ " + ".toList ++ t
    rw [joinPlus_concat (u' :: ts) t (by simp)]
    simp only [List.append_assoc]

theorem reprExpr_chunks (e : Expr Scalar) : reprExpr e = joinPlus (chunks e) ∨ reprExpr e = '(' :: joinPlus (chunks e) ++ [')'] := by
  unfold reprExpr chunks
  by_cases h : e.terms = []
  · left; simp [h, joinPlus]
  · right
    have hl : ¬ e.terms.length = 0 := by simpa using h
    rw [if_neg hl]
    by_cases hc : e.const.val = 0
    · simp [h, hc]
    · rw [if_neg hc, if_pos (Or.inr hc), joinPlus_concat _ _ (by simpa using h)]
      simp

theorem read_chunks (e : Expr Scalar) (h : ∀ t ∈ chunks e, (Tight t ∧ '+' ∉ t) ∧ t.head? ≠ some '(') :
    exprOf (reprExpr e) = finish ((chunks e).dropLast ++ lastTerms ((chunks e).getLast (chunks_ne e))) := by
  obtain ⟨h1, h2⟩ := exprOf_join (chunks e) (chunks_ne e) (fun t ht => (h t ht).1) (fun t ht => (h t ht).2)
  rcases reprExpr_chunks e with h | h <;> rw [h]
  · exact h1
  · exact h2

/-- a printed term is a summand or begins with a fraction -/
theorem reprTerm_cases {t : Term Scalar} (hv : t.vars ≠ []) :
    (∃ neg s, reprTerm t = signText neg s ∧ ¬ s.isConst) ∨
    ∃ q r, t.coef = .frac q ∧ q ≠ 1 ∧ q ≠ -1 ∧ AfterFrac r ∧ reprTerm t = fracText q ++ r := by
  by_cases hf : ∃ q, t.coef = .frac q ∧ q ≠ 1 ∧ q ≠ -1
  · obtain ⟨q, h1, h2, h3⟩ := hf
    right
    refine ⟨q, ' ' :: Py.join ' ' (t.vars.map reprVP), h1, h2, h3, ?_, ?_⟩
    · cases hvs : t.vars with
      | nil => exact absurd hvs hv
      | cons v vs => exact Or.inr ⟨v, vs, rfl⟩
    · unfold reprTerm
      rw [h1]
      dsimp only
      rw [if_neg (show ¬ (Scalar.frac q).val = 1 from h2), if_neg (show ¬ (Scalar.frac q).val = -1 from h3)]
      rfl
  · left
    have hf' : ∀ q, t.coef = .frac q → q = 1 ∨ q = -1 := by
      intro q hq
      by_contra hcon
      exact hf ⟨q, hq, fun h => hcon (Or.inl h), fun h => hcon (Or.inr h)⟩
    obtain ⟨z, hz⟩ : ∃ z : Int, t.coef.val = z := by
      cases hc : t.coef with
      | int z => exact ⟨z, rfl⟩
      | frac q =>
        rcases hf' q hc with rfl | rfl
        · exact ⟨1, by simp [Scalar.val]⟩
        · exact ⟨-1, by simp [Scalar.val]⟩
    obtain ⟨neg, s, h1, h2, -⟩ := reprTerm_sign hv hz hf'
    exact ⟨neg, s, h1, h2⟩

theorem reprScalar_cases (c : Scalar) : (∃ z, c = .int z) ∨ ∃ q, c = .frac q := by
  cases c with
  | int z => exact Or.inl ⟨z, rfl⟩
  | frac q => exact Or.inr ⟨q, rfl⟩

theorem chunks_ok (e : Expr Scalar) (hv : ∀ t ∈ e.terms, t.vars ≠ []) :
    ∀ t ∈ chunks e, (Tight t ∧ '+' ∉ t) ∧ t.head? ≠ some '(' := by
  intro t ht
  rcases List.mem_append.1 ht with ht | ht
  · obtain ⟨u, hu, rfl⟩ := List.mem_map.1 ht
    rcases reprTerm_cases (hv u hu) with ⟨neg, s, h, -⟩ | ⟨q, r, -, -, -, hr, h⟩
    · rw [h]; exact signText_ok neg s
    · rw [h]; exact frac_ok q hr
  · split at ht
    · rw [List.mem_singleton.1 ht]
      rcases reprScalar_cases e.const with ⟨z, h⟩ | ⟨q, h⟩
      · rw [h]
        obtain ⟨neg, s, h, -⟩ := reprInt_sign z
        show (Tight (reprInt z) ∧ '+' ∉ reprInt z) ∧ (reprInt z).head? ≠ some '('
        rw [h]; exact signText_ok neg s
      · rw [h]
        have := frac_ok q (r := []) (Or.inl rfl)
        rw [List.append_nil] at this
        exact this
    · cases ht

/-- the printed terms are read back -/
theorem read_terms : ∀ (ts : List (Term Int)), (∀ t ∈ ts, t.vars ≠ []) → ∃ l : List (Int × Summand),
    List.Forall₂ (fun x p => ∃ neg, x = signText neg p.2 ∧ p.1 = sgn neg) (ts.map fun t => reprTerm ⟨t.vars, .int t.coef⟩) l ∧
    (∀ p ∈ l, ¬ p.2.isConst) ∧ termsOf l = ts.map (fun t => ⟨t.vars.map fun v => ((v.var : Int), (v.pow : Int)), t.coef⟩) ∧ constOf l = 0
  | [], _ => ⟨[], .nil, by simp, rfl, rfl⟩
  | t :: ts, h => by
    obtain ⟨l, h1, h2, h3, h4⟩ := read_terms ts (fun t ht => h t (by simp [ht]))
    obtain ⟨neg, s, e, hs, ht, hk⟩ := reprTerm_sign (t := ⟨t.vars, .int t.coef⟩) (z := t.coef) (h t (by simp)) rfl (by simp)
    refine ⟨(sgn neg, s) :: l, .cons ⟨neg, e, rfl⟩ h1, ?_, ?_, ?_⟩
    · intro p hp
      rcases List.mem_cons.1 hp with rfl | hp
      · exact hs
      · exact h2 p hp
    · have : (sgn neg, s) :: l = [(sgn neg, s)] ++ l := rfl
      rw [this, termsOf_append, ht, h3]
      rfl
    · have : (sgn neg, s) :: l = [(sgn neg, s)] ++ l := rfl
      rw [this, constOf_append, hk, h4]
      rfl

/-- summands each of which has one sign at most -/
theorem finish_signs {ts : List (List Char)} {l : List (Int × Summand)} (hne : ts ≠ [])
    (h : List.Forall₂ (fun x p => ∃ neg, x = signText neg p.2 ∧ p.1 = sgn neg) ts l) (hc : ConstLast l) :
    finish (ts.dropLast ++ lastTerms (ts.getLast hne)) = .ok (meaning l) := by
  have hr : List.Forall₂ ReadAs ts l := by
    refine List.Forall₂.imp ?_ h
    rintro x ⟨σ, s⟩ ⟨neg, rfl, h⟩
    dsimp only at h
    subst h
    exact readAs_sign neg s
  have hl : l ≠ [] := by
    rintro rfl
    cases h
    exact hne rfl
  have hlast : ∃ neg s, ts.getLast hne = signText neg s := by
    have hm : ∀ {ts : List (List Char)} {l : List (Int × Summand)}, List.Forall₂ (fun x p => ∃ neg, x = signText neg p.2 ∧ p.1 = sgn neg) ts l →
        ∀ x ∈ ts, ∃ neg s, x = signText neg s := by
      intro ts l h
      induction h with
      | nil => intro x hx; cases hx
      | cons h _ ih =>
        intro x hx
        rcases List.mem_cons.1 hx with rfl | hx
        · obtain ⟨neg, h, -⟩ := h
          exact ⟨neg, _, h⟩
        · exact ih x hx
    exact hm h _ (List.getLast_mem hne)
  obtain ⟨neg, s, hls⟩ := hlast
  have : ts.dropLast ++ lastTerms (ts.getLast hne) = ts := by
    rw [hls, lastTerms_sign, ← hls, List.dropLast_append_getLast]
  rw [this]
  exact finish_ok hr hl hc

theorem ofInts_terms (e : Expr Int) : (ofInts e).terms.map reprTerm = e.terms.map fun t => reprTerm ⟨t.vars, .int t.coef⟩ := by
  unfold ofInts
  rw [List.map_map]
  rfl

theorem ofInts_nil (e : Expr Int) : (ofInts e).terms = [] ↔ e.terms = [] := by
  unfold ofInts
  exact List.map_eq_nil_iff

theorem ofInts_val (e : Expr Int) : (ofInts e).const.val ≠ 0 ↔ e.const ≠ 0 := by
  show ((e.const : Int) : Rat) ≠ 0 ↔ _
  exact Int.cast_ne_zero

theorem roundtrip (e : Expr Int) (hv : ∀ t ∈ e.terms, t.vars ≠ []) : exprOf (reprExpr (ofInts e)) = .ok (asRead e) := by
  rw [read_chunks _ (chunks_ok _ (by
    intro t ht
    obtain ⟨u, hu, rfl⟩ := List.mem_map.1 ht
    exact hv u hu))]
  obtain ⟨l, h1, h2, h3, h4⟩ := read_terms e.terms hv
  obtain ⟨neg, s, hk, hk1, hk2⟩ := reprInt_sign e.const
  by_cases hc : e.terms = [] ∨ e.const ≠ 0
  · have hch : chunks (ofInts e) = e.terms.map (fun t => reprTerm ⟨t.vars, .int t.coef⟩) ++ [reprInt e.const] := by
      unfold chunks
      have hc' : (ofInts e).terms = [] ∨ (ofInts e).const.val ≠ 0 := by rw [ofInts_nil, ofInts_val]; exact hc
      rw [if_pos hc', ofInts_terms]
      rfl
    have := finish_signs (chunks_ne (ofInts e)) (l := l ++ [(sgn neg, s)]) (by
      rw [hch]
      refine List.rel_append h1 (.cons ⟨neg, hk, rfl⟩ .nil)) (by
      intro p hp
      rw [List.dropLast_concat] at hp
      exact h2 p hp)
    rw [this]
    unfold meaning asRead
    rw [termsOf_append, constOf_append, hk1, hk2, h3, h4]
    simp
  · have hc1 : e.terms ≠ [] := fun h => hc (Or.inl h)
    have hc2 : e.const = 0 := by by_contra h; exact hc (Or.inr h)
    have hch : chunks (ofInts e) = e.terms.map (fun t => reprTerm ⟨t.vars, .int t.coef⟩) := by
      unfold chunks
      have hc' : ¬ ((ofInts e).terms = [] ∨ (ofInts e).const.val ≠ 0) := by rw [ofInts_nil, ofInts_val]; exact hc
      rw [if_neg hc', ofInts_terms, List.append_nil]
    have := finish_signs (chunks_ne (ofInts e)) (l := l) (by rw [hch]; exact h1) (fun p hp => h2 p (List.dropLast_subset l hp))
    rw [this]
    unfold meaning asRead
    rw [h3, h4, hc2]

theorem fraction_refused (e : Expr Scalar) (hv : ∀ t ∈ e.terms, t.vars ≠ [])
    (h : (∃ t ∈ e.terms, ∃ q, t.coef = .frac q ∧ q ≠ 1 ∧ q ≠ -1) ∨ ∃ q, e.const = .frac q ∧ (e.terms = [] ∨ q ≠ 0)) :
    exprOf (reprExpr e) = .error .value := by
  rw [read_chunks _ (chunks_ok _ hv)]
  have hgood : ∀ l : List (Term Scalar), (∀ t ∈ l, t.vars ≠ []) → (∀ t ∈ l, ¬ ∃ q, t.coef = .frac q ∧ q ≠ 1 ∧ q ≠ -1) →
      ∀ x ∈ l.map reprTerm, ∃ v, termOf x = .ok v := by
    intro l h1 h2 x hx
    obtain ⟨t, ht, rfl⟩ := List.mem_map.1 hx
    rcases reprTerm_cases (h1 t ht) with ⟨neg, s, h, hs⟩ | ⟨q, r, a, b, c, -⟩
    · rw [h]
      exact readAs_term (readAs_sign neg s) hs
    · exact absurd ⟨q, a, b, c⟩ (h2 t ht)
  by_cases hf : ∃ t ∈ e.terms, ∃ q, t.coef = .frac q ∧ q ≠ 1 ∧ q ≠ -1
  · obtain ⟨a, t, b, hl, ht, ha⟩ := first_of e.terms hf
    obtain ⟨q, hq, q1, q2⟩ := ht
    have hcond : ∃ r, AfterFrac r ∧ reprTerm t = fracText q ++ r := by
      rcases reprTerm_cases (hv t (by rw [hl]; simp)) with ⟨neg, s, h, hs⟩ | ⟨q', r, hq', -, -, hr, h⟩
      · refine ⟨' ' :: Py.join ' ' (t.vars.map reprVP), ?_, ?_⟩
        · cases hvs : t.vars with
          | nil => exact absurd hvs (hv t (by rw [hl]; simp))
          | cons v vs => exact Or.inr ⟨v, vs, rfl⟩
        · unfold reprTerm
          rw [hq]
          dsimp only
          rw [if_neg (show ¬ (Scalar.frac q).val = 1 from q1), if_neg (show ¬ (Scalar.frac q).val = -1 from q2)]
          rfl
      · rw [hq] at hq'
        cases hq'
        exact ⟨r, hr, h⟩
    obtain ⟨r, hr, h⟩ := hcond
    have hch : chunks e = a.map reprTerm ++ (fracText q ++ r) :: (b.map reprTerm ++ if e.terms = [] ∨ e.const.val ≠ 0 then [reprScalar e.const] else []) := by
      unfold chunks
      rw [← h, hl]
      simp
    have hx := hgood a (fun t ht => hv t (by rw [hl]; simp [ht])) ha
    have hfin := finish_frac (q := q) hr hx (ys := b.map reprTerm ++ if e.terms = [] ∨ e.const.val ≠ 0 then [reprScalar e.const] else []) (by simp)
    simp only [hch]
    exact hfin
  · obtain ⟨q, hq, h⟩ := h.resolve_left hf
    have hch : chunks e = e.terms.map reprTerm ++ [fracText q ++ []] := by
      unfold chunks
      rw [hq, if_pos (show e.terms = [] ∨ (Scalar.frac q).val ≠ 0 from h), List.append_nil]
      rfl
    have hx := hgood e.terms hv (fun t ht hq => hf ⟨t, ht, hq⟩)
    have hfin := finish_frac (q := q) (r := []) (Or.inl rfl) hx (ys := []) (by simp)
    simp only [hch]
    exact hfin

theorem hidden_terms {l : List (Term Scalar)} {l' : List (Term Int)}
    (ht : List.Forall₂ (fun t t' => t'.vars = t.vars ∧ t.coef.val = (t'.coef : Rat)) l l')
    (h : ∀ t ∈ l, ∀ q, t.coef = .frac q → q = 1 ∨ q = -1) :
    l.map reprTerm = l'.map fun t => reprTerm ⟨t.vars, .int t.coef⟩ := by
  induction ht with
  | nil => rfl
  | @cons t t' ts ts' hh _ ih =>
    rw [List.map_cons, List.map_cons, ih (fun t ht => h t (by simp [ht]))]
    congr 1
    obtain ⟨hv, hval⟩ := hh
    have hthis := h t (by simp)
    unfold reprTerm
    rw [hv]
    have e1 : (Scalar.int t'.coef).val = t.coef.val := by rw [hval]; rfl
    dsimp only
    rw [e1]
    by_cases a : t.coef.val = 1
    · rw [if_pos a, if_pos a]
    · by_cases b : t.coef.val = -1
      · rw [if_neg a, if_neg a, if_pos b, if_pos b]
      · rw [if_neg a, if_neg a, if_neg b, if_neg b]
        cases hco : t.coef with
        | int z =>
          rw [hco] at hval
          have : z = t'.coef := by simpa [Scalar.val] using hval
          rw [this]
        | frac q =>
          rw [hco] at a b
          rcases hthis q hco with h | h
          · exact absurd h a
          · exact absurd h b

/-- fractions that cannot be seen -/
theorem hidden_eq (e : Expr Scalar) (e' : Expr Int)
    (ht : List.Forall₂ (fun t t' => t'.vars = t.vars ∧ t.coef.val = (t'.coef : Rat)) e.terms e'.terms) (hc : e.const.val = (e'.const : Rat))
    (h1 : ¬ ∃ t ∈ e.terms, ∃ q, t.coef = .frac q ∧ q ≠ 1 ∧ q ≠ -1) (h2 : ¬ ∃ q, e.const = .frac q ∧ (e.terms = [] ∨ q ≠ 0)) :
    reprExpr e = reprExpr (ofInts e') := by
  have hterms : e.terms.map reprTerm = (ofInts e').terms.map reprTerm := by
    rw [ofInts_terms]
    refine hidden_terms ht ?_
    intro t ht q hq
    by_contra hcon
    exact h1 ⟨t, ht, q, hq, fun h => hcon (Or.inl h), fun h => hcon (Or.inr h)⟩
  have hlen : e.terms = [] ↔ (ofInts e').terms = [] := by
    constructor
    · intro h; rw [h] at hterms; simpa using hterms
    · intro h; rw [h] at hterms; simpa using hterms
  have hval : e.const.val = (ofInts e').const.val := hc
  have hcon : (e.terms = [] ∨ e.const.val ≠ 0) → reprScalar e.const = reprScalar (ofInts e').const := by
    intro hor
    cases hco : e.const with
    | int z =>
      rw [hco] at hc
      have : z = e'.const := by simpa [Scalar.val] using hc
      rw [this]
      rfl
    | frac q =>
      rw [hco] at hor
      exact absurd ⟨q, hco, hor⟩ h2
  unfold reprExpr
  by_cases he : e.terms = []
  · have he' := hlen.1 he
    simp only [he, he', List.length_nil, if_true]
    exact hcon (Or.inl he)
  · have he' : ¬ (ofInts e').terms = [] := fun h => he (hlen.2 h)
    have l1 : ¬ e.terms.length = 0 := by simpa using he
    have l2 : ¬ (ofInts e').terms.length = 0 := by simpa using he'
    rw [if_neg l1, if_neg l2, hterms, ← hval]
    by_cases hz : e.const.val = 0
    · simp only [if_pos hz]
    · simp only [if_neg hz]
      rw [hcon (Or.inr hz)]

end Model.ExprText
