import Mathlib.Data.Nat.Digits.Lemmas
import Mathlib.Tactic.IntervalCases
import Mathlib.Tactic.Linarith
import Verif.Model.Files
/-!
# Numbers as text

A reader that has nothing to do with the writers of `Model/Files`, and what they write is read back.
-/

namespace Verif.Files

/-- A decimal number without superfluous zeros. -/
def Decimal.Normal (d : Decimal) : Prop :=
  (∀ k ∈ d.digits, k < 10) ∧ d.digits.head? ≠ some 0 ∧ d.digits.getLast? ≠ some 0 ∧ (d.digits = [] → d.point = 0)

instance (d : Decimal) : Decidable d.Normal := by unfold Decimal.Normal; infer_instance

/-! ## The reader -/

def charVal (c : Char) : Nat := c.toNat - 48

/-- The number `±0.d₁d₂… · 10^point` without superfluous zeros. -/
def normalise (neg : Bool) (ds : List Nat) (point : Int) : Decimal :=
  let core := ((ds.dropWhile (· == 0)).reverse.dropWhile (· == 0)).reverse
  if core = [] then ⟨neg, [], 0⟩ else ⟨neg, core, point - (ds.takeWhile (· == 0)).length⟩

/-- The value of digits. -/
def natOf (t : Text) : Nat := Nat.ofDigits 10 (t.map charVal).reverse

/-- An integer; nothing means 0. -/
def intOf : Text → Int
  | '-' :: t => -(natOf t : Int)
  | '+' :: t => natOf t
  | t => natOf t

/-- Digits, perhaps with a point, perhaps with an exponent. -/
def readUnsigned (neg : Bool) (t : Text) : Decimal :=
  let mant := t.takeWhile (· != 'e')
  let exponent := (t.dropWhile (· != 'e')).drop 1
  let whole := mant.takeWhile (· != '.')
  let fraction := (mant.dropWhile (· != '.')).drop 1
  normalise neg ((whole ++ fraction).map charVal) (whole.length + intOf exponent)

/-- The number that a text denotes. -/
def readNumber : Text → Decimal
  | '-' :: t => readUnsigned true t
  | t => readUnsigned false t

/-! ## Digits -/

theorem digitChar_spec {k : Nat} (hk : k < 10) :
    charVal (digitChar k) = k ∧ digitChar k ≠ 'e' ∧ digitChar k ≠ '.' ∧ digitChar k ≠ '-' ∧ digitChar k ≠ '+' ∧
      digitChar k ≠ '_' ∧ digitChar k ≠ ':' ∧ digitChar k ≠ '{' ∧ digitChar k ≠ '}' ∧ digitChar k ≠ '"' ∧
      digitChar k ≠ ' ' ∧ digitChar k ≠ '\t' ∧ digitChar k ≠ 'j' ∧ Cli.isDigit (digitChar k) = true ∧
      Cli.digitVal (digitChar k) = k ∧ (digitChar k = '0' → k = 0) := by
  have : ∀ k : Fin 10, charVal (digitChar k) = k ∧ digitChar k ≠ 'e' ∧ digitChar k ≠ '.' ∧ digitChar k ≠ '-' ∧
      digitChar k ≠ '+' ∧ digitChar k ≠ '_' ∧ digitChar k ≠ ':' ∧ digitChar k ≠ '{' ∧ digitChar k ≠ '}' ∧
      digitChar k ≠ '"' ∧ digitChar k ≠ ' ' ∧ digitChar k ≠ '\t' ∧ digitChar k ≠ 'j' ∧
      Cli.isDigit (digitChar k) = true ∧ Cli.digitVal (digitChar k) = k ∧ (digitChar k = '0' → k.1 = 0) := by
    decide +kernel
  exact this ⟨k, hk⟩

theorem map_charVal {ds : List Nat} (h : ∀ k ∈ ds, k < 10) : (digitsText ds).map charVal = ds := by
  rw [digitsText, List.map_map]
  conv_rhs => rw [← List.map_id ds]
  exact List.map_congr_left fun k hk => (digitChar_spec (h k hk)).1

theorem digitsText_inj {ds es : List Nat} (h : ∀ k ∈ ds, k < 10) (h' : ∀ k ∈ es, k < 10)
    (e : digitsText ds = digitsText es) : ds = es := by
  rw [← map_charVal h, e, map_charVal h']

theorem zeros_eq (n : Nat) : zeros n = digitsText (List.replicate n 0) := by
  simp [zeros, digitsText, digitChar]

theorem replicate_lt (n : Nat) : ∀ k ∈ List.replicate n 0, k < 10 := by
  intro k hk
  rw [(List.mem_replicate.1 hk).2]
  decide

/-- No character of `t` is one of the characters with a meaning in names and numbers. -/
def Plain (t : Text) : Prop := ∃ ds : List Nat, (∀ k ∈ ds, k < 10) ∧ t = digitsText ds

theorem plain_digits {ds : List Nat} (h : ∀ k ∈ ds, k < 10) : Plain (digitsText ds) := ⟨ds, h, rfl⟩

theorem natText_digits (n : Nat) : ∃ ds : List Nat, (∀ k ∈ ds, k < 10) ∧ natText n = digitsText ds ∧ ds ≠ [] ∧
    Nat.ofDigits 10 ds.reverse = n := by
  unfold natText
  split
  · subst_vars
    exact ⟨[0], by simp, by decide, by simp, by simp⟩
  · refine ⟨(Nat.digits 10 n).reverse, ?_, rfl, ?_, ?_⟩
    · intro k hk
      exact Nat.digits_lt_base (by decide) (List.mem_reverse.1 hk)
    · simpa [Nat.digits_ne_nil_iff_ne_zero] using ‹¬ n = 0›
    · rw [List.reverse_reverse, Nat.ofDigits_digits]

theorem natOf_natText (n : Nat) : natOf (natText n) = n := by
  obtain ⟨ds, h1, h2, _, h3⟩ := natText_digits n
  rw [natOf, h2, map_charVal h1, h3]

theorem natText_inj {m n : Nat} (h : natText m = natText n) : m = n := by
  rw [← natOf_natText m, h, natOf_natText]

theorem natText_head (n : Nat) : ∃ k ks, k < 10 ∧ natText n = digitChar k :: ks := by
  obtain ⟨ds, h1, h2, h3, _⟩ := natText_digits n
  cases ds with
  | nil => exact absurd rfl h3
  | cons k ks => exact ⟨k, digitsText ks, h1 k (by simp), h2⟩

theorem natOf_zero_natText (n : Nat) : natOf ('0' :: natText n) = n := by
  obtain ⟨ds, h1, h2, _, h3⟩ := natText_digits n
  have : ('0' :: natText n) = digitsText (0 :: ds) := by rw [h2]; rfl
  rw [natOf, this, map_charVal (by simpa using h1), List.reverse_cons, Nat.ofDigits_append, h3]
  simp

theorem intOf_digit {k : Nat} (hk : k < 10) (t : Text) : intOf (digitChar k :: t) = natOf (digitChar k :: t) := by
  obtain ⟨_, _, _, h1, h2, _⟩ := digitChar_spec hk
  unfold intOf
  split
  · rename_i h
    exact absurd (List.cons.inj h).1 h1
  · rename_i h
    exact absurd (List.cons.inj h).1 h2
  · rfl

theorem intOf_intText (i : Int) : intOf (intText i) = i := by
  unfold intText signText
  by_cases hi : i < 0
  · simp only [hi, decide_true, if_true, List.cons_append, List.nil_append, intOf, natOf_natText]
    omega
  · simp only [hi, decide_false, Bool.false_eq_true, if_false, List.nil_append]
    obtain ⟨k, ks, hk, e⟩ := natText_head i.natAbs
    rw [e, intOf_digit hk, ← e, natOf_natText]
    omega

theorem intOf_pyExponent (i : Int) : intOf (pyExponent i) = i := by
  have key : natOf ((if i.natAbs < 10 then ['0'] else []) ++ natText i.natAbs) = i.natAbs := by
    split
    · exact natOf_zero_natText _
    · exact natOf_natText _
  unfold pyExponent
  by_cases hi : i < 0
  · simp only [hi, if_true, List.cons_append, List.nil_append, intOf, key]
    omega
  · simp only [hi, if_false, List.cons_append, List.nil_append, intOf, key]
    omega

/-! ## Reading back -/

theorem takeWhile_replicate_append {a : Nat} {ds : List Nat} (h : ds.head? ≠ some 0) :
    (List.replicate a 0 ++ ds).takeWhile (· == 0) = List.replicate a 0 ∧
    (List.replicate a 0 ++ ds).dropWhile (· == 0) = ds := by
  induction a with
  | zero =>
    cases ds with
    | nil => simp
    | cons k ks =>
      have : k ≠ 0 := by simpa using h
      simp [this]
  | succ a ih =>
    rw [List.replicate_succ, List.cons_append, List.takeWhile_cons, List.dropWhile_cons]
    simp [ih.1, ih.2]

theorem normalise_eq (neg : Bool) {ds : List Nat} (hne : ds ≠ []) (hh : ds.head? ≠ some 0) (hl : ds.getLast? ≠ some 0)
    (a b : Nat) (p : Int) :
    normalise neg (List.replicate a 0 ++ ds ++ List.replicate b 0) p = ⟨neg, ds, p - a⟩ := by
  have hd : (ds ++ List.replicate b 0).head? ≠ some 0 := by
    cases ds with
    | nil => exact absurd rfl hne
    | cons => simpa using hh
  obtain ⟨h1, h2⟩ := takeWhile_replicate_append (a := a) hd
  have hr : (List.replicate b 0 ++ ds.reverse).dropWhile (· == 0) = ds.reverse :=
    (takeWhile_replicate_append (a := b) (by rwa [List.head?_reverse])).2
  unfold normalise
  rw [List.append_assoc, h1, h2, List.reverse_append, List.reverse_replicate, hr, List.reverse_reverse]
  simp [hne]

theorem normalise_zeros (neg : Bool) (a : Nat) (p : Int) : normalise neg (List.replicate a 0) p = ⟨neg, [], 0⟩ := by
  have h := (takeWhile_replicate_append (a := a) (ds := []) (by simp)).2
  rw [List.append_nil] at h
  unfold normalise
  rw [h]
  simp

theorem takeWhile_stop {p : Char → Bool} {t r : Text} (h : ∀ c ∈ t, p c = true) (hr : ∀ c, r.head? = some c → p c = false) :
    (t ++ r).takeWhile p = t ∧ (t ++ r).dropWhile p = r := by
  induction t with
  | nil =>
    cases r with
    | nil => simp
    | cons c r => simp [hr c rfl]
  | cons c t ih =>
    have := ih fun c hc => h c (by simp [hc])
    simp [h c (by simp), this.1, this.2]

theorem mem_digits {ds : List Nat} (h : ∀ k ∈ ds, k < 10) {c : Char} (hc : c ∈ digitsText ds) :
    ∃ k, k < 10 ∧ c = digitChar k := by
  obtain ⟨k, hk, rfl⟩ := List.mem_map.1 hc
  exact ⟨k, h k hk, rfl⟩

/-- A number with a point (or without), and an exponent (or without). -/
theorem readUnsigned_eq (neg : Bool) {w f : List Nat} (hw : ∀ k ∈ w, k < 10) (hf : ∀ k ∈ f, k < 10) (point : Text)
    (hp : point = ['.'] ∨ (point = [] ∧ f = [])) (ex : Text) (hx : ex = [] ∨ ∃ t, ex = 'e' :: t) :
    readUnsigned neg (digitsText w ++ (point ++ digitsText f) ++ ex) =
      normalise neg (w ++ f) (w.length + intOf (ex.drop 1)) := by
  have he : ∀ c ∈ digitsText w ++ (point ++ digitsText f), (c != 'e') = true := by
    intro c hc
    rw [List.mem_append, List.mem_append] at hc
    have : c ≠ 'e' := by
      rcases hc with hc | hc | hc
      · obtain ⟨k, hk, rfl⟩ := mem_digits hw hc
        exact (digitChar_spec hk).2.1
      · rcases hp with rfl | ⟨rfl, _⟩
        · rw [List.mem_singleton] at hc
          rw [hc]
          decide
        · simp at hc
      · obtain ⟨k, hk, rfl⟩ := mem_digits hf hc
        exact (digitChar_spec hk).2.1
    simpa using this
  obtain ⟨h1, h2⟩ := takeWhile_stop (p := (· != 'e')) he (r := ex) (by
    intro c hc
    rcases hx with rfl | ⟨t, rfl⟩
    · simp at hc
    · simp only [List.head?_cons, Option.some.injEq] at hc
      subst hc
      rfl)
  obtain ⟨h3, h4⟩ := takeWhile_stop (p := (· != '.')) (t := digitsText w) (r := point ++ digitsText f) (by
    intro c hc
    obtain ⟨k, hk, rfl⟩ := mem_digits hw hc
    simpa using (digitChar_spec hk).2.2.1) (by
    intro c hc
    rcases hp with rfl | ⟨rfl, rfl⟩
    · simp only [List.cons_append, List.head?_cons, Option.some.injEq] at hc
      subst hc
      rfl
    · simp [digitsText] at hc)
  have h5 : (point ++ digitsText f).drop 1 = digitsText f := by
    rcases hp with rfl | ⟨rfl, rfl⟩
    · rfl
    · rfl
  simp only [readUnsigned, h1, h2, h3, h4, h5, List.map_append, map_charVal hw, map_charVal hf]
  simp [digitsText]

section
variable {d : Decimal}

theorem read_small (hn : d.Normal) (h0 : d.digits ≠ []) (hp : d.point ≤ 0) : readUnsigned d.neg (smallText d) = d := by
  have e : smallText d = digitsText [0] ++ (['.'] ++ digitsText (List.replicate (-d.point).toNat 0 ++ d.digits)) ++ [] := by
    simp only [smallText, zeros_eq, digitsText, List.map_append]
    simp [digitChar]
  have := normalise_eq d.neg h0 hn.2.1 hn.2.2.1 (1 + (-d.point).toNat) 0 1
  rw [e, readUnsigned_eq _ (by simp) (by
    intro k hk
    rcases List.mem_append.1 hk with hk | hk
    · exact replicate_lt _ k hk
    · exact hn.1 k hk) _ (.inl rfl) _ (.inl rfl)]
  rw [List.replicate_add] at this
  simp only [List.replicate_zero, List.append_nil, List.replicate_one] at this
  have e2 : ([0] ++ (List.replicate (-d.point).toNat 0 ++ d.digits)) =
      ([0] ++ List.replicate (-d.point).toNat 0) ++ d.digits := by simp
  rw [e2]
  have e3 : (([0] : List Nat).length : Int) + intOf (([] : Text).drop 1) = 1 := by decide
  rw [e3, this]
  have : (1 : Int) - ((1 + (-d.point).toNat : Nat) : Int) = d.point := by omega
  rw [this]

theorem read_split (hn : d.Normal) (h0 : d.digits ≠ []) (hp : 0 < d.point) (hl : d.point.toNat < d.digits.length) :
    readUnsigned d.neg (splitText d) = d := by
  have e : splitText d = digitsText (d.digits.take d.point.toNat) ++
      (['.'] ++ digitsText (d.digits.drop d.point.toNat)) ++ [] := by
    simp [splitText]
  rw [e, readUnsigned_eq _ (fun k hk => hn.1 k (List.mem_of_mem_take hk))
    (fun k hk => hn.1 k (List.mem_of_mem_drop hk)) _ (.inl rfl) _ (.inl rfl), List.take_append_drop]
  have := normalise_eq d.neg h0 hn.2.1 hn.2.2.1 0 0 d.point
  have e3 : ((d.digits.take d.point.toNat).length : Int) + intOf (([] : Text).drop 1) = d.point := by
    rw [List.length_take, min_eq_left (by omega)]
    have : intOf (([] : Text).drop 1) = 0 := by decide
    omega
  rw [e3]
  simpa using this

theorem read_large (hn : d.Normal) (h0 : d.digits ≠ []) (hl : (d.digits.length : Int) ≤ d.point) :
    readUnsigned d.neg (largeText d) = d ∧ readUnsigned d.neg (largeText d ++ ".0".toList) = d := by
  have hw : ∀ k ∈ d.digits ++ List.replicate (d.point.toNat - d.digits.length) 0, k < 10 := by
    intro k hk
    rcases List.mem_append.1 hk with hk | hk
    · exact hn.1 k hk
    · exact replicate_lt _ k hk
  have e : largeText d = digitsText (d.digits ++ List.replicate (d.point.toNat - d.digits.length) 0) := by
    simp only [largeText, zeros_eq, digitsText, List.map_append]
  have e3 : ((d.digits ++ List.replicate (d.point.toNat - d.digits.length) 0).length : Int) +
      intOf (([] : Text).drop 1) = d.point := by
    rw [List.length_append, List.length_replicate]
    have : intOf (([] : Text).drop 1) = 0 := by decide
    omega
  constructor
  · have := readUnsigned_eq d.neg hw (f := []) (by simp) [] (.inr ⟨rfl, rfl⟩) [] (.inl rfl)
    simp only [digitsText, List.map_nil, List.append_nil] at this
    rw [e, digitsText, this, e3]
    simpa using normalise_eq d.neg h0 hn.2.1 hn.2.2.1 0 (d.point.toNat - d.digits.length) d.point
  · have := readUnsigned_eq d.neg hw (f := [0]) (by simp) ['.'] (.inl rfl) [] (.inl rfl)
    have e4 : largeText d ++ ".0".toList = digitsText (d.digits ++ List.replicate (d.point.toNat - d.digits.length) 0) ++
      (['.'] ++ digitsText [0]) ++ [] := by
      rw [e]; simp [digitsText, digitChar]
    rw [e4, this, e3]
    have := normalise_eq d.neg h0 hn.2.1 hn.2.2.1 0 (d.point.toNat - d.digits.length + 1) d.point
    rw [List.replicate_succ'] at this
    simpa using this

theorem read_scientific (hn : d.Normal) (h0 : d.digits ≠ []) {ex : Text} (hx : intOf ex = d.point - 1) :
    readUnsigned d.neg (mantissa d.digits ++ ['e'] ++ ex) = d := by
  have hN := normalise_eq d.neg h0 hn.2.1 hn.2.2.1 0 0 d.point
  simp only [List.replicate_zero, List.append_nil, List.nil_append, Nat.cast_zero, sub_zero] at hN
  match hd : d.digits with
  | [] => exact absurd hd h0
  | [k] =>
    have := readUnsigned_eq d.neg (w := [k]) (by
      intro x hx
      exact hn.1 x (by rw [hd]; exact hx)) (f := []) (by simp) [] (.inr ⟨rfl, rfl⟩) ('e' :: ex) (.inr ⟨_, rfl⟩)
    simp only [mantissa, digitsText, List.map_nil, List.map_cons, List.append_nil, List.drop_one, List.tail_cons, hx,
      List.length_cons, List.length_nil] at this ⊢
    rw [List.append_assoc, show (['e'] ++ ex : Text) = 'e' :: ex from rfl, this]
    rw [hd] at hN
    have e : (((0 + 1 : Nat) : Int) + (d.point - 1)) = d.point := by omega
    rw [e, hN, ← hd]
  | k :: k' :: ks =>
    have hlt : ∀ x ∈ k :: k' :: ks, x < 10 := by
      intro x hx
      exact hn.1 x (by rw [hd]; exact hx)
    have := readUnsigned_eq d.neg (w := [k]) (by simpa using hlt k (by simp)) (f := k' :: ks)
      (fun x hx => hlt x (by simp at hx ⊢; tauto)) ['.'] (.inl rfl) ('e' :: ex) (.inr ⟨_, rfl⟩)
    simp only [List.drop_one, List.tail_cons, hx] at this
    have e4 : mantissa (k :: k' :: ks) ++ ['e'] ++ ex =
        digitsText [k] ++ (['.'] ++ digitsText (k' :: ks)) ++ 'e' :: ex := by
      simp [mantissa, digitsText]
    rw [e4, this, List.singleton_append]
    rw [hd] at hN
    have e : ((([k] : List Nat).length : Int) + (d.point - 1)) = d.point := by simp
    rw [e, hN, ← hd]

theorem readNumber_sign {t : Text} (ht : t.head? ≠ some '-') (neg : Bool) :
    readNumber (signText neg ++ t) = readUnsigned neg t := by
  cases neg with
  | true => rfl
  | false =>
    simp only [signText, Bool.false_eq_true, if_false, List.nil_append]
    unfold readNumber
    split
    · simp at ht
    · rfl

theorem head_digits {ds : List Nat} (h : ∀ k ∈ ds, k < 10) (h0 : ds ≠ []) (r : Text) :
    (digitsText ds ++ r).head? ≠ some '-' := by
  cases ds with
  | nil => exact absurd rfl h0
  | cons k ks =>
    simp only [digitsText, List.map_cons, List.cons_append, List.head?_cons, ne_eq, Option.some.injEq]
    exact (digitChar_spec (h k (by simp))).2.2.2.1

theorem head_split (hn : d.Normal) (h0 : d.digits ≠ []) (hp : 0 < d.point) : (splitText d).head? ≠ some '-' := by
  rw [splitText, List.append_assoc]
  refine head_digits (fun k hk => hn.1 k (List.mem_of_mem_take hk)) ?_ _
  cases hd : d.digits with
  | nil => exact absurd hd h0
  | cons k ks =>
    rw [show d.point.toNat = (d.point.toNat - 1) + 1 by omega]
    simp

theorem head_mantissa (hn : d.Normal) (h0 : d.digits ≠ []) (r : Text) : (mantissa d.digits ++ r).head? ≠ some '-' := by
  match hd : d.digits with
  | [] => exact absurd hd h0
  | [k] =>
    have := (digitChar_spec (hn.1 k (by rw [hd]; simp))).2.2.2.1
    simpa [mantissa] using this
  | k :: k' :: ks =>
    have := (digitChar_spec (hn.1 k (by rw [hd]; simp))).2.2.2.1
    simpa [mantissa] using this

theorem read_zero (hn : d.Normal) (h0 : d.digits = []) : readUnsigned d.neg ['0'] = d ∧
    readUnsigned d.neg "0.0".toList = d := by
  have e : d = ⟨d.neg, [], 0⟩ := by
    cases d
    simp only [Decimal.mk.injEq, true_and]
    exact ⟨h0, hn.2.2.2 h0⟩
  constructor
  · have := readUnsigned_eq d.neg (w := [0]) (by simp) (f := []) (by simp) [] (.inr ⟨rfl, rfl⟩) [] (.inl rfl)
    have e2 := normalise_zeros d.neg 1 1
    rw [e]
    exact this.trans e2
  · have := readUnsigned_eq d.neg (w := [0]) (by simp) (f := [0]) (by simp) ['.'] (.inl rfl) [] (.inl rfl)
    have e2 := normalise_zeros d.neg 2 1
    rw [e]
    exact this.trans e2

theorem read_rustDisplay (hn : d.Normal) : readNumber (rustDisplay d) = d := by
  unfold rustDisplay
  split
  · rename_i h
    rw [readNumber_sign (by decide)]
    exact (read_zero hn h).1
  · rename_i h
    split
    · rename_i hp
      rw [readNumber_sign (by simp [smallText])]
      exact read_small hn h hp
    · rename_i hp
      split
      · rename_i hl
        rw [readNumber_sign (head_split hn h (by omega))]
        exact read_split hn h (by omega) hl
      · rename_i hl
        rw [readNumber_sign (by rw [largeText]; exact head_digits hn.1 h _)]
        exact (read_large hn h (by omega)).1

theorem read_ryu (hn : d.Normal) : readNumber (ryu d) = d := by
  unfold ryu
  split
  · rename_i h
    rw [readNumber_sign (by decide)]
    exact (read_zero hn h).2
  · rename_i h
    split
    · rename_i hl
      rw [readNumber_sign (by rw [largeText, List.append_assoc]; exact head_digits hn.1 h _)]
      exact (read_large hn h hl.1).2
    · split
      · rename_i hl hp
        rw [readNumber_sign (head_split hn h (by omega))]
        exact read_split hn h (by omega) (by omega)
      · split
        · rename_i hp
          rw [readNumber_sign (by simp [smallText])]
          exact read_small hn h hp.2
        · rw [readNumber_sign (by rw [List.append_assoc]; exact head_mantissa hn h _)]
          exact read_scientific hn h (intOf_intText _)

theorem read_pyRepr (hn : d.Normal) : readNumber (pyRepr d) = d := by
  unfold pyRepr
  split
  · rename_i h
    rw [readNumber_sign (by decide)]
    exact (read_zero hn h).2
  · rename_i h
    split
    · rw [readNumber_sign (by rw [List.append_assoc]; exact head_mantissa hn h _)]
      exact read_scientific hn h (intOf_pyExponent _)
    · split
      · rename_i hp
        rw [readNumber_sign (by simp [smallText])]
        exact read_small hn h hp
      · split
        · rename_i hp hl
          rw [readNumber_sign (head_split hn h (by omega))]
          exact read_split hn h (by omega) hl
        · rename_i hp hl
          rw [readNumber_sign (by rw [largeText, List.append_assoc]; exact head_digits hn.1 h _)]
          exact (read_large hn h (by omega)).2

end

end Verif.Files
