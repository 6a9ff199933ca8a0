import Verif.Proofs.Files
/-!
# From a line of parameters to a figure (C78)
-/

namespace Verif.Files

open Results

variable {F α : Type}

/-! ## What is said about numbers -/

/-- The contract of text and numbers: shortest decimal numbers have no superfluous zeros and determine the number, and
what Rust reads as a number Python reads as the same number. -/
structure Floats.OK (fl : Floats F) : Prop where
  normal : ∀ x d, fl.decimal x = some d → d.Normal
  inj : ∀ x y d, fl.decimal x = some d → fl.decimal y = some d → x = y
  agree : ∀ t x, fl.rustParse t = some x → fl.pyParse t = some x

/-- **C78** The three ways to write a number are read back as this number. -/
theorem C78_texts {d : Decimal} (hn : d.Normal) :
    readNumber (rustDisplay d) = d ∧ readNumber (ryu d) = d ∧ readNumber (pyRepr d) = d :=
  ⟨read_rustDisplay hn, read_ryu hn, read_pyRepr hn⟩

example : (⟨false, [1, 5], -5⟩ : Decimal).Normal ∧ ryu ⟨false, [1, 5], -5⟩ = "1.5e-6".toList ∧
    rustDisplay ⟨false, [1, 5], -5⟩ = "0.0000015".toList ∧ pyRepr ⟨false, [1, 5], -5⟩ = "1.5e-06".toList := by
  decide +kernel

example : (⟨true, [1, 2, 3], 2⟩ : Decimal).Normal ∧ ryu ⟨true, [1, 2, 3], 2⟩ = "-12.3".toList ∧
    rustDisplay ⟨false, [2], 2⟩ = "20".toList ∧ pyRepr ⟨false, [2], 2⟩ = "20.0".toList ∧
    ryu ⟨false, [2], 18⟩ = "2e17".toList ∧ pyRepr ⟨false, [2], 18⟩ = "2e+17".toList := by
  decide +kernel

/-- `serde_json` and Python write the number alike: it is zero, or at least `10^-4` and below `10^16`, or below
`10^-9`. -/
def Decimal.Same (d : Decimal) : Prop := d.digits = [] ∨ (-4 < d.point ∧ d.point ≤ 16) ∨ d.point ≤ -9

/-- **C78** For which numbers `serde_json` and Python write the same text. -/
theorem C78_repr {d : Decimal} (hn : d.Normal) : ryu d = pyRepr d ↔ d.Same := by
  unfold ryu pyRepr Decimal.Same
  rw [List.append_right_inj]
  by_cases h0 : d.digits = []
  · simp [h0]
  rw [if_neg h0, if_neg h0]
  simp only [h0, false_or]
  have hlen : 0 < d.digits.length := List.length_pos_iff.2 h0
  by_cases h1 : 16 < d.point
  · rw [if_neg (by omega), if_neg (by omega), if_neg (by omega), if_pos (.inr h1), List.append_right_inj]
    refine ⟨fun h => ?_, fun h => absurd h (by omega)⟩
    exfalso
    obtain ⟨k, ks, hk, e⟩ := natText_head (d.point - 1).natAbs
    have h2 : ¬ d.point - 1 < 0 := by omega
    simp only [intText, signText, pyExponent, h2, decide_false, Bool.false_eq_true, if_false, List.nil_append, e,
      List.cons_append] at h
    exact (digitChar_spec hk).2.2.2.2.1 (List.cons.inj h).1
  by_cases h2 : -4 < d.point
  · have hr : (-4 < d.point ∧ d.point ≤ 16) ∨ d.point ≤ -9 := .inl ⟨h2, by omega⟩
    simp only [hr, iff_true]
    rw [if_neg (show ¬ (d.point ≤ -4 ∨ 16 < d.point) by omega)]
    by_cases h3 : d.point ≤ 0
    · rw [if_neg (by omega), if_neg (by omega), if_pos (by omega), if_pos h3]
    · rw [if_neg h3]
      by_cases h4 : d.point.toNat < d.digits.length
      · rw [if_neg (by omega), if_pos (by omega), if_pos h4]
      · rw [if_pos (by omega), if_neg h4]
  · rw [if_neg (by omega), if_neg (by omega), if_pos (show d.point ≤ -4 ∨ 16 < d.point by omega)]
    by_cases h3 : d.point = -4
    · rw [if_pos (by omega)]
      refine ⟨fun h => ?_, fun h => absurd h (by omega)⟩
      exfalso
      have : (mantissa d.digits).head? = some '0' := by
        have := congrArg List.head? h
        simp only [smallText] at this
        match hd : d.digits with
        | [] => exact absurd hd h0
        | [k] => rw [hd] at this; simpa [mantissa] using this.symm
        | k :: k' :: ks => rw [hd] at this; simpa [mantissa] using this.symm
      match hd : d.digits with
      | [] => exact absurd hd h0
      | [k] =>
        rw [hd] at this
        have h5 := (digitChar_spec (hn.1 k (by rw [hd]; simp))).2.2.2.2.2.2.2.2.2.2.2.2.2.2.2
        simp only [mantissa, List.head?_cons, Option.some.injEq] at this
        exact hn.2.1 (by rw [hd, h5 this]; rfl)
      | k :: k' :: ks =>
        rw [hd] at this
        have h5 := (digitChar_spec (hn.1 k (by rw [hd]; simp))).2.2.2.2.2.2.2.2.2.2.2.2.2.2.2
        simp only [mantissa, List.head?_cons, Option.some.injEq] at this
        exact hn.2.1 (by rw [hd, h5 this]; rfl)
    · rw [if_neg (by omega), List.append_right_inj]
      have h4 : d.point - 1 < 0 := by omega
      by_cases h5 : d.point ≤ -9
      · have h6 : ¬ (d.point - 1).natAbs < 10 := by omega
        have hr : (-4 < d.point ∧ d.point ≤ 16) ∨ d.point ≤ -9 := .inr h5
        simp [intText, signText, pyExponent, h4, h6, hr]
      · have h6 : (d.point - 1).natAbs < 10 := by omega
        have hr : ¬ ((-4 < d.point ∧ d.point ≤ 16) ∨ d.point ≤ -9) := by omega
        simp only [hr, iff_false]
        intro h
        have := congrArg List.length h
        simp [intText, signText, pyExponent, h4, h6] at this

example : (⟨false, [5], 0⟩ : Decimal).Same ∧ ¬ (⟨false, [5], -4⟩ : Decimal).Same ∧ (⟨false, [5], -4⟩ : Decimal).Normal :=
  ⟨.inr (.inl ⟨by decide, by decide⟩), by rintro (h | ⟨h, _⟩ | h) <;> revert h <;> decide, by decide⟩

/-! ## Names of files -/

/-- The arguments of a run that gets so far as to write a file: finite numbers, and kinds of densities that exist. -/
def Args.Proper (fl : Floats F) : Args F → Prop
  | .node e eTy c cTy => (fl.decimal e).isSome ∧ (fl.decimal c).isSome ∧
      eTy ∈ ["constant", "reziprocal_linear", "reziprocal_square_root"] ∧
      cTy ∈ ["constant", "reziprocal_linear", "reziprocal_square_root"]
  | .density _ m => (fl.decimal m).isSome

theorem split_eq {c : Char} {s s' r r' : Text} (h : c ∉ s) (h' : c ∉ s') (e : s ++ c :: r = s' ++ c :: r') :
    s = s' ∧ r = r' := by
  induction s generalizing s' with
  | nil =>
    cases s' with
    | nil => simpa using e
    | cons x s' =>
      simp only [List.nil_append, List.cons_append, List.cons.injEq] at e
      exact absurd (by simp [e.1]) h'
  | cons x s ih =>
    cases s' with
    | nil =>
      simp only [List.nil_append, List.cons_append, List.cons.injEq] at e
      exact absurd (by simp [e.1]) h
    | cons y s' =>
      simp only [List.cons_append, List.cons.injEq] at e
      obtain ⟨h1, h2⟩ := ih (fun hc => h (by simp [hc])) (fun hc => h' (by simp [hc])) e.2
      exact ⟨by rw [e.1, h1], h2⟩

/-- The characters of a number. -/
def NumChar (c : Char) : Prop := (∃ k, k < 10 ∧ c = digitChar k) ∨ c = '.' ∨ c = 'e' ∨ c = '-' ∨ c = '+'

theorem numChar_digits {ds : List Nat} (h : ∀ k ∈ ds, k < 10) {c : Char} (hc : c ∈ digitsText ds) : NumChar c :=
  .inl (mem_digits h hc)

theorem numChar_zeros {n : Nat} {c : Char} (hc : c ∈ zeros n) : NumChar c :=
  .inl ⟨0, by decide, (List.mem_replicate.1 hc).2⟩

theorem numChar_natText {n : Nat} {c : Char} (hc : c ∈ natText n) : NumChar c := by
  obtain ⟨ds, h1, h2, _⟩ := natText_digits n
  rw [h2] at hc
  exact numChar_digits h1 hc

theorem numChar_sign {b : Bool} {c : Char} (hc : c ∈ signText b) : NumChar c := by
  cases b
  · simp [signText] at hc
  · simp only [signText, if_true, List.mem_singleton] at hc
    exact .inr (.inr (.inr (.inl hc)))

section
variable {d : Decimal}

theorem numChar_small (hn : d.Normal) {c : Char} (hc : c ∈ smallText d) : NumChar c := by
  simp only [smallText, List.mem_append] at hc
  rcases hc with (hc | hc) | hc
  · have : c = '0' ∨ c = '.' := by simpa using hc
    rcases this with rfl | rfl
    · exact .inl ⟨0, by decide, rfl⟩
    · exact .inr (.inl rfl)
  · exact numChar_zeros hc
  · exact numChar_digits hn.1 hc

theorem numChar_split (hn : d.Normal) {c : Char} (hc : c ∈ splitText d) : NumChar c := by
  simp only [splitText, List.mem_append, List.mem_singleton] at hc
  rcases hc with (hc | hc) | hc
  · exact numChar_digits (fun k hk => hn.1 k (List.mem_of_mem_take hk)) hc
  · exact .inr (.inl hc)
  · exact numChar_digits (fun k hk => hn.1 k (List.mem_of_mem_drop hk)) hc

theorem numChar_large (hn : d.Normal) {c : Char} (hc : c ∈ largeText d ++ ".0".toList) : NumChar c := by
  simp only [largeText, List.mem_append] at hc
  rcases hc with (hc | hc) | hc
  · exact numChar_digits hn.1 hc
  · exact numChar_zeros hc
  · have : c = '.' ∨ c = '0' := by simpa using hc
    rcases this with rfl | rfl
    · exact .inr (.inl rfl)
    · exact .inl ⟨0, by decide, rfl⟩

theorem numChar_mantissa (hn : d.Normal) {c : Char} (hc : c ∈ mantissa d.digits) : NumChar c := by
  match hd : d.digits with
  | [] => rw [hd] at hc; simp [mantissa] at hc
  | [k] =>
    rw [hd] at hc
    simp only [mantissa, List.mem_singleton] at hc
    exact .inl ⟨k, hn.1 k (by rw [hd]; simp), hc⟩
  | k :: k' :: ks =>
    rw [hd] at hc
    rcases List.mem_cons.1 hc with hc | hc
    · exact .inl ⟨k, hn.1 k (by rw [hd]; simp), hc⟩
    · rcases List.mem_cons.1 hc with hc | hc
      · exact .inr (.inl hc)
      · exact numChar_digits (fun x hx => hn.1 x (by rw [hd]; exact List.mem_cons_of_mem _ hx)) hc

theorem numChar_zero {c : Char} (hc : c ∈ "0.0".toList) : NumChar c := by
  have : c = '0' ∨ c = '.' := by
    have : c = '0' ∨ c = '.' ∨ c = '0' := by simpa using hc
    tauto
  rcases this with rfl | rfl
  · exact .inl ⟨0, by decide, rfl⟩
  · exact .inr (.inl rfl)

theorem numChar_ryu (hn : d.Normal) {c : Char} (hc : c ∈ ryu d) : NumChar c := by
  unfold ryu at hc
  rcases List.mem_append.1 hc with hc | hc
  · exact numChar_sign hc
  split at hc
  · exact numChar_zero hc
  split at hc
  · exact numChar_large hn hc
  split at hc
  · exact numChar_split hn hc
  split at hc
  · exact numChar_small hn hc
  simp only [List.mem_append, List.mem_singleton, intText] at hc
  rcases hc with (hc | hc) | hc | hc
  · exact numChar_mantissa hn hc
  · exact .inr (.inr (.inl hc))
  · exact numChar_sign hc
  · exact numChar_natText hc

theorem numChar_pyRepr (hn : d.Normal) {c : Char} (hc : c ∈ pyRepr d) : NumChar c := by
  unfold pyRepr at hc
  rcases List.mem_append.1 hc with hc | hc
  · exact numChar_sign hc
  split at hc
  · exact numChar_zero hc
  split at hc
  · simp only [List.mem_append, List.mem_singleton, pyExponent] at hc
    rcases hc with (hc | hc) | (hc | hc) | hc
    · exact numChar_mantissa hn hc
    · exact .inr (.inr (.inl hc))
    · split at hc
      · exact .inr (.inr (.inr (.inl (by simpa using hc))))
      · exact .inr (.inr (.inr (.inr (by simpa using hc))))
    · split at hc
      · have : c = '0' := by simpa using hc
        exact .inl ⟨0, by decide, this⟩
      · simp at hc
    · exact numChar_natText hc
  split at hc
  · exact numChar_small hn hc
  split at hc
  · exact numChar_split hn hc
  · exact numChar_large hn hc

end

theorem numChar_ne {c : Char} (h : NumChar c) : c ≠ '_' ∧ c ≠ ':' ∧ c ≠ '{' ∧ c ≠ '}' ∧ c ≠ '"' := by
  rcases h with ⟨k, hk, rfl⟩ | rfl | rfl | rfl | rfl
  · obtain ⟨_, _, _, _, _, h1, h2, h3, h4, h5, _⟩ := digitChar_spec hk
    exact ⟨h1, h2, h3, h4, h5⟩
  all_goals decide

theorem kind_chars {ty : String} (h : ty ∈ ["constant", "reziprocal_linear", "reziprocal_square_root"]) :
    ∀ c ∈ ty.toList, c ≠ ':' ∧ c ≠ '{' ∧ c ≠ '}' ∧ c ≠ '"' := by
  simp only [List.mem_cons, List.not_mem_nil, or_false] at h
  rcases h with rfl | rfl | rfl <;> decide +kernel

theorem filter_id {t : Text} (h : ∀ c ∈ t, c ≠ '{' ∧ c ≠ '}' ∧ c ≠ '"') :
    t.filter (fun c => !(c == '{' || c == '"' || c == '}')) = t := by
  rw [List.filter_eq_self]
  intro c hc
  obtain ⟨h1, h2, h3⟩ := h c hc
  simp [h1, h2, h3]

/-- The name without the characters of JSON. -/
theorem nodeFile_eq {fl : Floats F} (hfl : fl.OK) {e c : F} {d d' : Decimal} (he : fl.decimal e = some d)
    (hc : fl.decimal c = some d') {eTy cTy : String}
    (h1 : eTy ∈ ["constant", "reziprocal_linear", "reziprocal_square_root"])
    (h2 : cTy ∈ ["constant", "reziprocal_linear", "reziprocal_square_root"]) :
    nodeFile fl e eTy c cTy = "node-".toList ++ (eTy.toList ++ ':' :: (ryu d ++ '_' :: (cTy.toList ++ ':' ::
      (ryu d' ++ ".json".toList)))) := by
  have e1 := filter_id (t := eTy.toList) fun c hc => (kind_chars h1 c hc).2
  have e2 := filter_id (t := cTy.toList) fun c hc => (kind_chars h2 c hc).2
  have e3 := filter_id (t := ryu d) fun c hc => (numChar_ne (numChar_ryu (hfl.normal _ _ he) hc)).2.2
  have e4 := filter_id (t := ryu d') fun c hx => (numChar_ne (numChar_ryu (hfl.normal _ _ hc) hx)).2.2
  simp only [nodeFile, densityJson, jsonText, he, hc, Option.map_some, Option.getD_some, List.filter_append, e1, e2, e3, e4]
  simp

theorem node_head (t : Text) : ("node-".toList ++ t).head? = some 'n' := by
  have : "node-".toList = 'n' :: "ode-".toList := by decide +kernel
  rw [this, List.cons_append, List.head?_cons]

theorem density_head (fl : Floats F) (n : Nat) (m : F) : (densityFile fl n m).head? = some 'd' := by
  have : "density-numnodes:".toList = 'd' :: "ensity-numnodes:".toList := by decide +kernel
  unfold densityFile
  rw [this]
  simp only [List.cons_append, List.head?_cons]

/-- **C78** Runs with different arguments write different files. -/
theorem C78_names {fl : Floats F} (hfl : fl.OK) {a b : Args F} (ha : a.Proper fl) (hb : b.Proper fl)
    (h : fileName fl a = fileName fl b) : a = b := by
  cases a with
  | node e eTy c cTy =>
    obtain ⟨h1, h2, h3, h4⟩ := ha
    obtain ⟨d1, h1⟩ := Option.isSome_iff_exists.1 h1
    obtain ⟨d2, h2⟩ := Option.isSome_iff_exists.1 h2
    cases b with
    | node e' eTy' c' cTy' =>
      obtain ⟨h1', h2', h3', h4'⟩ := hb
      obtain ⟨d1', h1'⟩ := Option.isSome_iff_exists.1 h1'
      obtain ⟨d2', h2'⟩ := Option.isSome_iff_exists.1 h2'
      simp only [fileName] at h
      rw [nodeFile_eq hfl h1 h2 h3 h4, nodeFile_eq hfl h1' h2' h3' h4', List.append_right_inj] at h
      generalize ".json".toList = J at h
      obtain ⟨a1, h⟩ := split_eq (c := ':') (fun hc => (kind_chars h3 _ hc).1 rfl) (fun hc => (kind_chars h3' _ hc).1 rfl) h
      obtain ⟨a2, h⟩ := split_eq (c := '_') (fun hc => (numChar_ne (numChar_ryu (hfl.normal _ _ h1) hc)).1 rfl)
        (fun hc => (numChar_ne (numChar_ryu (hfl.normal _ _ h1') hc)).1 rfl) h
      obtain ⟨a3, h⟩ := split_eq (c := ':') (fun hc => (kind_chars h4 _ hc).1 rfl) (fun hc => (kind_chars h4' _ hc).1 rfl) h
      have a4 := List.append_cancel_right h
      have b1 : d1 = d1' := by
        rw [← read_ryu (hfl.normal _ _ h1), a2, read_ryu (hfl.normal _ _ h1')]
      have b2 : d2 = d2' := by
        rw [← read_ryu (hfl.normal _ _ h2), a4, read_ryu (hfl.normal _ _ h2')]
      subst b1 b2
      rw [hfl.inj _ _ _ h1 h1', hfl.inj _ _ _ h2 h2', String.toList_injective a1, String.toList_injective a3]
    | density n m =>
      exfalso
      simp only [fileName] at h
      rw [nodeFile_eq hfl h1 h2 h3 h4] at h
      have := congrArg List.head? h
      rw [node_head, density_head] at this
      exact absurd this (by decide)
  | density n m =>
    obtain ⟨d1, h1⟩ := Option.isSome_iff_exists.1 ha
    cases b with
    | node e' eTy' c' cTy' =>
      exfalso
      obtain ⟨h1', h2', h3', h4'⟩ := hb
      obtain ⟨d1', h1'⟩ := Option.isSome_iff_exists.1 h1'
      obtain ⟨d2', h2'⟩ := Option.isSome_iff_exists.1 h2'
      simp only [fileName] at h
      rw [nodeFile_eq hfl h1' h2' h3' h4'] at h
      have := congrArg List.head? h
      rw [node_head, density_head] at this
      exact absurd this (by decide)
    | density n' m' =>
      obtain ⟨d1', h1'⟩ := Option.isSome_iff_exists.1 hb
      have hu : "_numdensities:".toList = '_' :: "numdensities:".toList := by decide +kernel
      unfold fileName densityFile displayText at h
      simp only [h1, h1', Option.map_some, Option.getD_some, hu] at h
      generalize "density-numnodes:".toList = A at h
      generalize "numdensities:".toList = B at h
      generalize "_density:".toList = C at h
      generalize ".json".toList = D at h
      simp only [List.append_assoc, List.cons_append, List.append_right_inj] at h
      obtain ⟨a1, h⟩ := split_eq (c := '_') (s := natText n) (s' := natText n')
        (fun hc => (numChar_ne (numChar_natText hc)).1 rfl) (fun hc => (numChar_ne (numChar_natText hc)).1 rfl) h
      rw [List.append_right_inj, List.append_right_inj, List.append_right_inj] at h
      have a4 := List.append_cancel_right h
      have b1 : d1 = d1' := by
        rw [← read_rustDisplay (hfl.normal _ _ h1), a4, read_rustDisplay (hfl.normal _ _ h1')]
      subst b1
      rw [natText_inj a1, hfl.inj _ _ _ h1 h1']

/-- **C78** A run that gets as far as a file has kinds of densities that exist. -/
theorem C78_kinds [FloatRoot F] {ty : String} {x : F} {d : Density F} (h : newDensity ty x = .ok d) :
    ty ∈ ["constant", "reziprocal_linear", "reziprocal_square_root"] := by
  unfold newDensity at h
  split at h
  · simp
  · simp
  · simp
  · simp at h

/-! ## Words -/

/-- A word of a line: not empty, without blanks, no option. -/
def Word (t : Text) : Prop := t ≠ [] ∧ (∀ c ∈ t, c ≠ ' ' ∧ c ≠ '\t') ∧ t.head? ≠ some '-'

theorem splitAtP_word {p : Char → Bool} {t : Text} (h : ∀ c ∈ t, p c = false) (c : Char) (hc : p c = true) (r : Text) :
    splitAtP p (t ++ c :: r) = t :: splitAtP p r := by
  induction t with
  | nil => simp [splitAtP, hc]
  | cons x t ih =>
    rw [List.cons_append, splitAtP, h x (by simp), ih fun c hc => h c (by simp [hc])]
    simp

theorem splitAtP_last {p : Char → Bool} {t : Text} (h : ∀ c ∈ t, p c = false) : splitAtP p t = [t] := by
  induction t with
  | nil => rfl
  | cons x t ih =>
    rw [splitAtP, h x (by simp), ih fun c hc => h c (by simp [hc])]
    simp

theorem Word.shell {t : Text} (h : Word t) : ∀ c ∈ t, (c == ' ' || c == '\t') = false := by
  intro c hc
  have := h.2.1 c hc
  simp [this.1, this.2]

theorem Word.py {t : Text} (h : Word t) : ∀ c ∈ t, (c == ' ') = false := by
  intro c hc
  simpa using (h.2.1 c hc).1

theorem head_word {t : Text} (h : Word t) : (t.head? == some '-') = false := by
  have := h.2.2
  simpa using this

/-! ## The sweep over the number of nodes -/

/-- **C78** The sweep over the number of nodes: the line `e c kind kind` starts a run with these densities of edges and of
corrections, and the figure shows its data when Python writes both numbers like `serde_json`. Otherwise the file is not
found. -/
theorem C78_node {fl : Floats F} (hfl : fl.OK) {t1 t2 : Text} {eTy cTy : String} (w1 : Word t1) (w2 : Word t2)
    (h1 : eTy ∈ ["constant", "reziprocal_linear", "reziprocal_square_root"])
    (h2 : cTy ∈ ["constant", "reziprocal_linear", "reziprocal_square_root"])
    {e c : F} (p1 : fl.rustParse t1 = some e) (p2 : fl.rustParse t2 = some c) {d d' : Decimal}
    (q1 : fl.decimal e = some d) (q2 : fl.decimal c = some d') {job : Args F → Option α} {content : α}
    (hj : job (.node e eTy c cTy) = some content) :
    let lines := [t1 ++ ' ' :: (t2 ++ ' ' :: (eTy.toList ++ ' ' :: cTy.toList))]
    (d.Same → d'.Same → ∀ disk, nodeInput fl eTy cTy lines (nodeHpc fl job lines disk) = .ok content) ∧
    (¬ (d.Same ∧ d'.Same) →
      nodeInput fl eTy cTy lines (nodeHpc fl job lines fun _ => none) = .error .fileNotFoundError) := by
  intro lines
  obtain ⟨line, hline⟩ : ∃ line, line = t1 ++ ' ' :: (t2 ++ ' ' :: (eTy.toList ++ ' ' :: cTy.toList)) := ⟨_, rfl⟩
  have hlines : lines = [line] := by rw [hline]
  clear_value lines
  subst hlines
  have w3 : ∀ ty ∈ ["constant", "reziprocal_linear", "reziprocal_square_root"], Word (String.toList ty) := by
    intro ty h
    simp only [List.mem_cons, List.not_mem_nil, or_false] at h
    rcases h with rfl | rfl | rfl <;> (unfold Word; decide +kernel)
  have s1 : shellWords line = [t1, t2, eTy.toList, cTy.toList] := by
    rw [hline, shellWords]
    rw [splitAtP_word w1.shell _ (by decide), splitAtP_word w2.shell _ (by decide),
      splitAtP_word (w3 _ h1).shell _ (by decide), splitAtP_last (w3 _ h2).shell, List.filter_eq_self]
    intro t ht
    simp only [List.mem_cons, List.not_mem_nil, or_false] at ht
    rcases ht with rfl | rfl | rfl | rfl
    · simpa using w1.1
    · simpa using w2.1
    · simpa using (w3 _ h1).1
    · simpa using (w3 _ h2).1
  have s2 : parse fl ("node".toList :: shellWords line) = some (.node e eTy c cTy) := by
    rw [s1]
    simp [parse, positionals, removeOne, head_word w1, head_word w2, head_word (w3 _ h1), head_word (w3 _ h2), p1, p2]
  have s3 : ∀ disk, nodeHpc fl job [line] disk = write disk (nodeFile fl e eTy c cTy) content := by
    intro disk
    have : [line].getD 0 [] = line := rfl
    simp only [nodeHpc, this, execute, s2, hj, fileName]
  have s4 : getParameters fl [line] = .ok [(e, c)] := by
    have : splitAtP (· == ' ') line = [t1, t2, eTy.toList, cTy.toList] := by
      rw [hline, splitAtP_word w1.py _ (by decide), splitAtP_word w2.py _ (by decide),
        splitAtP_word (w3 _ h1).py _ (by decide), splitAtP_last (w3 _ h2).py]
    have hp : pyParameter fl line = .ok (e, c) := by
      simp [pyParameter, this, Plot.index, pyFloat, hfl.agree _ _ p1, hfl.agree _ _ p2, bind, Except.bind, pure,
        Except.pure]
    simp [getParameters, List.mapM_cons, hp, bind, Except.bind, pure, Except.pure]
  have s5 : ∀ disk : Disk α, nodeInput fl eTy cTy [line] disk = readFile disk ("node-".toList ++ (eTy.toList ++ ':' ::
      (pyRepr d ++ '_' :: (cTy.toList ++ ':' :: (pyRepr d' ++ ".json".toList))))) := by
    intro disk
    simp only [nodeInput, s4, bind, Except.bind, Plot.index, List.getElem?_cons_zero, nodeData, q1, q2, Option.map_some,
      Option.getD_some]
    congr 1
    simp
  have n1 := hfl.normal _ _ q1
  have n2 := hfl.normal _ _ q2
  constructor
  · intro g1 g2 disk
    rw [s5, s3, nodeFile_eq hfl q1 q2 h1 h2, (C78_repr n1).2 g1, (C78_repr n2).2 g2]
    simp [readFile, write]
  · intro hne
    rw [s5, s3, nodeFile_eq hfl q1 q2 h1 h2, readFile, write, if_neg]
    intro h
    rw [List.append_right_inj] at h
    generalize ".json".toList = J at h
    obtain ⟨_, h⟩ := split_eq (c := ':') (fun hc => (kind_chars h1 _ hc).1 rfl) (fun hc => (kind_chars h1 _ hc).1 rfl) h
    obtain ⟨a2, h⟩ := split_eq (c := '_') (fun hc => (numChar_ne (numChar_pyRepr n1 hc)).1 rfl)
      (fun hc => (numChar_ne (numChar_ryu n1 hc)).1 rfl) h
    obtain ⟨_, h⟩ := split_eq (c := ':') (fun hc => (kind_chars h2 _ hc).1 rfl) (fun hc => (kind_chars h2 _ hc).1 rfl) h
    exact hne ⟨(C78_repr n1).1 a2.symm, (C78_repr n2).1 (List.append_cancel_right h).symm⟩

/-! ## The sweep over densities -/

/-- A number that is whole and not negative. -/
def Whole (fl : Floats F) (x : F) : Prop :=
  ∃ d, fl.decimal x = some d ∧ d.neg = false ∧ (d.digits.length : Int) ≤ d.point

/-- A line of `parameters/density.dat`: 20 nodes and the multiplier `x`. -/
def DensityLine (fl : Floats F) (line : Text) (x : F) : Prop :=
  ∃ s m, line = s ++ ' ' :: m ∧ Word s ∧ Word m ∧ parseUsize s = some 20 ∧ (fl.pyParse s).isSome ∧
    fl.rustParse m = some x

theorem display_whole {d : Decimal} (hn : d.Normal) (h1 : d.neg = false) (h2 : (d.digits.length : Int) ≤ d.point) :
    rustDisplay d = intText (pyInt d) := by
  have hi : pyInt d = ((Nat.ofDigits 10 (d.digits ++ List.replicate (d.point.toNat - d.digits.length) 0).reverse : Nat) : Int) := by
    simp only [pyInt, h1, Bool.false_eq_true, if_false]
    rw [List.take_of_length_le (by omega)]
  have hlt : ∀ k ∈ d.digits ++ List.replicate (d.point.toNat - d.digits.length) 0, k < 10 := by
    intro k hk
    rcases List.mem_append.1 hk with hk | hk
    · exact hn.1 k hk
    · exact replicate_lt _ k hk
  rw [hi]
  generalize hL : d.digits ++ List.replicate (d.point.toNat - d.digits.length) 0 = L at *
  have hneg : ¬ ((Nat.ofDigits 10 L.reverse : Nat) : Int) < 0 := by omega
  simp only [rustDisplay, h1, signText, Bool.false_eq_true, if_false, List.nil_append, intText, hneg, decide_false,
    Int.natAbs_natCast]
  by_cases h0 : d.digits = []
  · have hp := hn.2.2.2 h0
    rw [h0, hp] at hL
    simp only [h0, if_true]
    rw [← hL]
    decide
  · rw [if_neg h0]
    have hlen : 0 < d.digits.length := List.length_pos_iff.2 h0
    rw [if_neg (by omega), if_neg (by omega)]
    have hL0 : L ≠ [] := by rw [← hL]; simp [h0]
    have hh : ∀ h : L.reverse ≠ [], L.reverse.getLast h ≠ 0 := by
      intro h hz
      have h3 : L.head? = some 0 := by
        have := List.getLast?_eq_some_getLast h
        rw [hz, List.getLast?_reverse] at this
        exact this
      rw [← hL] at h3
      apply hn.2.1
      cases hd : d.digits with
      | nil => exact absurd hd h0
      | cons k ks => rw [hd] at h3; simpa using h3
    have hd := Nat.digits_ofDigits 10 (by decide) L.reverse (fun k hk => hlt k (List.mem_reverse.1 hk)) hh
    have hpos : Nat.ofDigits 10 L.reverse ≠ 0 := by
      intro hz
      rw [hz, Nat.digits_zero] at hd
      exact hL0 (by simpa using hd.symm)
    rw [natText, if_neg hpos, hd, List.reverse_reverse, ← hL, largeText, zeros_eq]
    simp [digitsText]

section
variable {fl : Floats F}

theorem parse_density {line : Text} {x : F} (h : DensityLine fl line x) :
    parse fl ("density".toList :: shellWords line) = some (.density 20 x) := by
  obtain ⟨s, m, rfl, w1, w2, p1, _, p2⟩ := h
  have s1 : shellWords (s ++ ' ' :: m) = [s, m] := by
    rw [shellWords, splitAtP_word w1.shell _ (by decide), splitAtP_last w2.shell, List.filter_eq_self]
    intro t ht
    simp only [List.mem_cons, List.not_mem_nil, or_false] at ht
    rcases ht with rfl | rfl
    · simpa using w1.1
    · simpa using w2.1
  rw [s1]
  simp [parse, positionals, removeOne, head_word w1, head_word w2, p1, p2]

theorem execute_density {line : Text} {x : F} (h : DensityLine fl line x) {job : Args F → Option α} {content : α}
    (hj : job (.density 20 x) = some content) (disk : Disk α) :
    execute fl job disk ("density".toList :: shellWords line) = write disk (densityFile fl 20 x) content := by
  simp only [execute, parse_density h, hj, fileName]

theorem pyParameter_density (hfl : fl.OK) {line : Text} {x : F} (h : DensityLine fl line x) :
    ∃ y, pyParameter fl line = .ok (y, x) := by
  obtain ⟨s, m, rfl, w1, w2, _, p1, p2⟩ := h
  obtain ⟨y, p1⟩ := Option.isSome_iff_exists.1 p1
  refine ⟨y, ?_⟩
  have : splitAtP (· == ' ') (s ++ ' ' :: m) = [s, m] := by
    rw [splitAtP_word w1.py _ (by decide), splitAtP_last w2.py]
  simp [pyParameter, this, Plot.index, pyFloat, p1, hfl.agree _ _ p2, bind, Except.bind, pure, Except.pure]

/-- What is on the disk after runs with different results. -/
theorem densityLocal_get {lines : List Text} {xs : List F} (h : List.Forall₂ (DensityLine fl) lines xs)
    {job : Args F → Option α} {content : F → α} (hj : ∀ x ∈ xs, job (.density 20 x) = some (content x))
    (hi : ∀ x ∈ xs, ∀ y ∈ xs, densityFile fl 20 x = densityFile fl 20 y → x = y) (disk : Disk α) :
    (∀ x ∈ xs, densityLocal fl job lines disk (densityFile fl 20 x) = some (content x)) ∧
    ∀ n, (∀ x ∈ xs, n ≠ densityFile fl 20 x) → densityLocal fl job lines disk n = disk n := by
  induction h generalizing disk with
  | nil => exact ⟨by simp, fun _ _ => rfl⟩
  | @cons line x lines xs h _ ih =>
    have e : densityLocal fl job (line :: lines) disk =
        densityLocal fl job lines (write disk (densityFile fl 20 x) (content x)) := by
      rw [densityLocal, List.foldl_cons, execute_density h (hj x (by simp))]
      rfl
    obtain ⟨i1, i2⟩ := ih (fun y hy => hj y (by simp [hy]))
      (fun y hy z hz => hi y (by simp [hy]) z (by simp [hz])) (write disk (densityFile fl 20 x) (content x))
    rw [e]
    refine ⟨?_, ?_⟩
    · intro y hy
      rcases List.mem_cons.1 hy with rfl | hy
      · by_cases hm : y ∈ xs
        · exact i1 y hm
        · rw [i2 _ fun z hz he => hm (by
            rw [hi y (by simp) z (by simp [hz]) he]
            exact hz)]
          simp [write]
      · exact i1 y hy
    · intro n hn
      rw [i2 n fun z hz => hn z (by simp [hz])]
      simp [write, hn x (by simp)]

end

/-- **C78** The sweep over densities: when the multipliers are whole numbers and the runs end, then the rows of the images are
the data of the runs, each in the place of its line; in whatever order the runs end. -/
theorem C78_density {fl : Floats F} (hfl : fl.OK) {lines order : List Text} {xs : List F}
    (h : List.Forall₂ (DensityLine fl) lines xs) (ho : order.Perm lines) (hw : ∀ x ∈ xs, Whole fl x)
    {job : Args F → Option α} {content : F → α} (hj : ∀ x ∈ xs, job (.density 20 x) = some (content x))
    (disk : Disk α) :
    densityInputs fl lines (densityLocal fl job order disk) = .ok (xs.map content) := by
  have hp : ∀ x ∈ xs, (Args.density 20 x).Proper fl := by
    intro x hx
    obtain ⟨d, hd, _⟩ := hw x hx
    exact Option.isSome_iff_exists.2 ⟨d, hd⟩
  have hi : ∀ x ∈ xs, ∀ y ∈ xs, densityFile fl 20 x = densityFile fl 20 y → x = y := by
    intro x hx y hy he
    have := C78_names (a := .density 20 x) (b := .density 20 y) hfl (hp x hx) (hp y hy) he
    injection this
  obtain ⟨ys, hys, hperm⟩ := List.perm_comp_forall₂ ho h
  have hg := (densityLocal_get hys (job := job) (content := content) (fun x hx => hj x (hperm.subset hx))
    (fun x hx y hy => hi x (hperm.subset hx) y (hperm.subset hy)) disk).1
  have hg : ∀ x ∈ xs, densityLocal fl job order disk (densityFile fl 20 x) = some (content x) :=
    fun x hx => hg x (hperm.mem_iff.2 hx)
  generalize densityLocal fl job order disk = D at hg
  have hd : ∀ x ∈ xs, ∀ y, densityData fl D (y, x) = .ok (content x) := by
    intro x hx y
    obtain ⟨d, h1, h2, h3⟩ := hw x hx
    have : densityFile fl 20 x = "density-numnodes:".toList ++ natText 20 ++ "_numdensities:".toList ++ natText 21 ++
        "_density:".toList ++ intText (pyInt d) ++ ".json".toList := by
      unfold densityFile displayText DensitySweep.numDensities
      rw [h1, Option.map_some, Option.getD_some, display_whole (hfl.normal _ _ h1) h2 h3]
    simp only [densityData, h1, readFile]
    rw [← this, hg x hx]
  clear hj hi hp hg ho hys hperm hw
  have key : ∃ ps, getParameters fl lines = .ok ps ∧ ps.mapM (densityData fl D) = .ok (xs.map content) := by
    induction h with
    | nil => exact ⟨[], rfl, rfl⟩
    | @cons line x lines xs h _ ih =>
      obtain ⟨ps, i1, i2⟩ := ih (fun x hx => hd x (by simp [hx]))
      obtain ⟨y, hy⟩ := pyParameter_density hfl h
      refine ⟨(y, x) :: ps, ?_, ?_⟩
      · rw [getParameters, List.mapM_cons, hy]
        rw [getParameters] at i1
        simp [i1, bind, Except.bind, pure, Except.pure]
      · rw [List.mapM_cons, hd x (by simp) y]
        simp [i2, bind, Except.bind, pure, Except.pure]
  obtain ⟨ps, k1, k2⟩ := key
  simp only [densityInputs, k1, bind, Except.bind, k2]

/-- **C78** Nothing is lost or invented: after the runs a file has its old content, or the content that a run of one of the
lines has calculated for this name. A run that panics leaves all files as they are. -/
theorem C78_kept (fl : Floats F) (job : Args F → Option α) (lines : List Text) (disk : Disk α) (name : Text) :
    densityLocal fl job lines disk name = disk name ∨
    ∃ line ∈ lines, ∃ args content, parse fl ("density".toList :: shellWords line) = some args ∧
      job args = some content ∧ fileName fl args = name ∧ densityLocal fl job lines disk name = some content := by
  induction lines generalizing disk with
  | nil => exact Or.inl rfl
  | cons line lines ih =>
    have e : densityLocal fl job (line :: lines) disk =
        densityLocal fl job lines (execute fl job disk ("density".toList :: shellWords line)) := rfl
    rw [e]
    rcases ih (execute fl job disk ("density".toList :: shellWords line)) with h | ⟨l, hl, a, c, h1, h2, h3, h4⟩
    · rw [h]
      cases hp : parse fl ("density".toList :: shellWords line) with
      | none => exact Or.inl (by simp only [execute, hp])
      | some args =>
        cases hj : job args with
        | none => exact Or.inl (by simp only [execute, hp, hj])
        | some content =>
          by_cases hn : name = fileName fl args
          · exact Or.inr ⟨line, by simp, args, content, hp, hj, hn.symm, by simp only [execute, hp, hj, write, hn, if_true]⟩
          · exact Or.inl (by simp only [execute, hp, hj, write, hn, if_false])
    · exact Or.inr ⟨l, by simp [hl], a, c, h1, h2, h3, h4⟩

/-- **C78** When a run has not come to an end and there is no file of an earlier time, then the script for the images stops
with `FileNotFoundError`: there is no image with a part of the data. -/
theorem C78_missing {fl : Floats F} (hfl : fl.OK) {lines order : List Text} {xs : List F}
    (h : List.Forall₂ (DensityLine fl) lines xs) (ho : order.Perm lines) (hw : ∀ x ∈ xs, Whole fl x)
    {job : Args F → Option α} {x : F} (hx : x ∈ xs) (hj : job (.density 20 x) = none) :
    densityInputs fl lines (densityLocal fl job order fun _ => none) = .error .fileNotFoundError := by
  have hname : ∀ x ∈ xs, ∃ d, fl.decimal x = some d ∧ densityFile fl 20 x =
      "density-numnodes:".toList ++ natText 20 ++ "_numdensities:".toList ++ natText 21 ++
        "_density:".toList ++ intText (pyInt d) ++ ".json".toList := by
    intro x hx
    obtain ⟨d, h1, h2, h3⟩ := hw x hx
    refine ⟨d, h1, ?_⟩
    unfold densityFile displayText DensitySweep.numDensities
    rw [h1, Option.map_some, Option.getD_some, display_whole (hfl.normal _ _ h1) h2 h3]
  obtain ⟨ys, hys, hperm⟩ := List.perm_comp_forall₂ ho h
  -- the file is not there
  have hno : densityLocal fl job order (fun _ => none) (densityFile fl 20 x) = none := by
    rcases C78_kept fl job order (fun _ => none) (densityFile fl 20 x) with h1 | ⟨l, hl, a, c, h1, h2, h3, _⟩
    · exact h1
    · exfalso
      obtain ⟨y, hy, hly⟩ : ∃ y ∈ ys, DensityLine fl l y := by
        clear hperm ho
        clear * - hys hl
        induction hys with
        | nil => simp at hl
        | @cons l' y' ls ys' h' _ ih =>
          rcases List.mem_cons.1 hl with rfl | hl
          · exact ⟨y', by simp, h'⟩
          · obtain ⟨y, hy, hly⟩ := ih hl
            exact ⟨y, by simp [hy], hly⟩
      have hy := hperm.subset hy
      have hpa := parse_density hly
      rw [hpa] at h1
      cases h1
      have : y = x := by
        have hpr : ∀ z ∈ xs, (Args.density 20 z).Proper fl := by
          intro z hz
          obtain ⟨d, hd, _⟩ := hw z hz
          exact Option.isSome_iff_exists.2 ⟨d, hd⟩
        have := C78_names (a := .density 20 y) (b := .density 20 x) hfl (hpr y hy) (hpr x hx) h3
        injection this
      rw [this, hj] at h2
      cases h2
  generalize densityLocal fl job order (fun _ => none) = D at hno
  have hd : ∀ z ∈ xs, ∀ y, (∃ c, densityData fl D (y, z) = .ok c) ∨ densityData fl D (y, z) = .error .fileNotFoundError := by
    intro z hz y
    obtain ⟨d, h1, h2⟩ := hname z hz
    simp only [densityData, h1, readFile]
    cases D _ with
    | some c => exact Or.inl ⟨c, rfl⟩
    | none => exact Or.inr rfl
  have hdx : ∀ y, densityData fl D (y, x) = .error .fileNotFoundError := by
    intro y
    obtain ⟨d, h1, h2⟩ := hname x hx
    simp only [densityData, h1, readFile]
    rw [← h2, hno]
  clear hw hname ho hys hperm hno
  have key : ∃ ps, getParameters fl lines = .ok ps ∧ ps.mapM (densityData fl D) = .error .fileNotFoundError := by
    have hget : ∀ {lines : List Text} {xs : List F}, List.Forall₂ (DensityLine fl) lines xs →
        ∃ ps, getParameters fl lines = .ok ps ∧ ps.map (·.2) = xs := by
      intro lines xs h
      induction h with
      | nil => exact ⟨[], rfl, rfl⟩
      | @cons line x lines xs h _ ih =>
        obtain ⟨ps, i1, i2⟩ := ih
        obtain ⟨y, hy⟩ := pyParameter_density hfl h
        refine ⟨(y, x) :: ps, ?_, by simp [i2]⟩
        rw [getParameters, List.mapM_cons, hy]
        rw [getParameters] at i1
        simp [i1, bind, Except.bind, pure, Except.pure]
    obtain ⟨ps, h1, rfl⟩ := hget h
    refine ⟨ps, h1, ?_⟩
    clear h h1 hget
    induction ps with
    | nil => simp at hx
    | cons q ps ih =>
      rw [List.mapM_cons]
      rcases hd q.2 (by simp) q.1 with ⟨c, hc⟩ | hc
      · have hxq : x ≠ q.2 := by
          rintro rfl
          rw [hdx q.1] at hc
          cases hc
        have := ih (by simpa [hxq] using hx) (fun z hz => hd z (List.mem_cons_of_mem _ hz))
        rw [show densityData fl D q = .ok c from hc]
        simp [this, bind, Except.bind]
      · rw [show densityData fl D q = _ from hc]
        rfl
  obtain ⟨ps, k1, k2⟩ := key
  simp only [densityInputs, k1, bind, Except.bind, k2]

/-- **C78** The jobs with the indices 1 to 21 on the cluster are the runs of the local script, in some order. -/
theorem C78_hpc {fl : Floats F} {lines : List Text} (hl : lines.length = 21) {indices : List Nat}
    (hi : indices.Perm (List.range' 1 21)) (job : Args F → Option α) (disk : Disk α) :
    ∃ order, order.Perm lines ∧ densityHpc fl job lines indices disk = densityLocal fl job order disk := by
  refine ⟨indices.map fun i => lines.getD (i - 1) [], ?_, ?_⟩
  · refine (hi.map _).trans (List.Perm.of_eq ?_)
    apply List.ext_getElem
    · simp [hl]
    · intro i h1 h2
      simp [h2]
  · rw [densityHpc, densityLocal, List.foldl_map]

/-! ## A model of the contract -/

/-- Numbers are their decimal numbers: digits, points, signs and exponents are read by `readNumber`. -/
def decimals : Floats Decimal where
  rustParse t := if t ≠ [] ∧ t.all (fun c => Cli.isDigit c || c == '.' || c == '-' || c == 'e') then some (readNumber t) else none
  pyParse t := if t ≠ [] ∧ t.all (fun c => Cli.isDigit c || c == '.' || c == '-' || c == 'e') then some (readNumber t) else none
  decimal d := if d.Normal then some d else none

theorem decimals_ok : decimals.OK where
  normal x d h := by
    simp only [decimals, Option.ite_none_right_eq_some, Option.some.injEq] at h
    exact h.2 ▸ h.1
  inj x y d h h' := by
    simp only [decimals, Option.ite_none_right_eq_some, Option.some.injEq] at h h'
    rw [h.2, h'.2]
  agree _ _ h := h

/-- The lines of `results/parameters/density.dat`. -/
def densityDat : List Text := (List.range' 1 21).map fun k => "20 ".toList ++ natText k

-- the published files
example : densityDat.getD 0 [] = "20 1".toList ∧ densityDat.getD 20 [] = "20 21".toList ∧
    (densityDat.map fun line => (parse decimals ("density".toList :: shellWords line)).map (fileName decimals)).take 2 =
      [some "density-numnodes:20_numdensities:21_density:1.json".toList,
       some "density-numnodes:20_numdensities:21_density:2.json".toList] := by
  decide +kernel

example : parse decimals ("node".toList :: shellWords
      "0.5 0.5 reziprocal_square_root reziprocal_square_root".toList) =
    some (.node ⟨false, [5], 0⟩ "reziprocal_square_root" ⟨false, [5], 0⟩ "reziprocal_square_root") ∧
    nodeFile decimals ⟨false, [5], 0⟩ "reziprocal_square_root" ⟨false, [5], 0⟩ "reziprocal_square_root" =
      "node-reziprocal_square_root:0.5_reziprocal_square_root:0.5.json".toList := by
  decide +kernel

/-- The multiplier in a line of `densityDat`. -/
def multiplier (k : Nat) : Decimal := normalise false (Nat.digits 10 k).reverse (Nat.digits 10 k).length

-- the hypotheses of `C78_density`
example : List.Forall₂ (DensityLine decimals) densityDat ((List.range' 1 21).map multiplier) ∧
    ∀ x ∈ (List.range' 1 21).map multiplier, Whole decimals x := by
  constructor
  · rw [densityDat, List.forall₂_map_left_iff, List.forall₂_map_right_iff, List.forall₂_same]
    intro k hk
    refine ⟨"20".toList, natText k, rfl, by unfold Word; decide +kernel, ?_, by decide +kernel, by decide +kernel, ?_⟩
    · have : ∀ k ∈ List.range' 1 21, natText k ≠ [] ∧ (∀ c ∈ natText k, c ≠ ' ' ∧ c ≠ '\t') ∧
        (natText k).head? ≠ some '-' := by decide +kernel
      exact this k hk
    · have : ∀ k ∈ List.range' 1 21, decimals.rustParse (natText k) = some (multiplier k) := by decide +kernel
      exact this k hk
  · have : ∀ x ∈ (List.range' 1 21).map multiplier, decimals.decimal x = some x ∧ x.neg = false ∧
      (x.digits.length : Int) ≤ x.point := by decide +kernel
    exact fun x hx => ⟨x, this x hx⟩

-- the hypotheses of `C78_missing`: the run with the multiplier 3 fails
example : multiplier 3 ∈ (List.range' 1 21).map multiplier ∧
    (fun a : Args Decimal => if a = .density 20 (multiplier 3) then none else some ()) (.density 20 (multiplier 3)) = none := by
  decide +kernel

/-- A multiplier with a fraction: 2.5. -/
def fractional : List Text := ["20 2".toList, "20 2.5".toList]

/-- **C78** For multipliers that are not whole the images show something else: `int` cuts the fraction off, and in the place of the
line `20 2.5` there is the row of `20 2` again. -/
theorem C78_fraction_refuted : ¬ ∀ (fl : Floats Decimal), fl.OK → ∀ (lines : List Text) (xs : List Decimal),
    List.Forall₂ (DensityLine fl) lines xs → (∀ x ∈ xs, ∃ d, fl.decimal x = some d ∧ d.neg = false) → xs.Nodup →
    ∀ (job : Args Decimal → Option Decimal) (content : Decimal → Decimal),
      (∀ x ∈ xs, job (.density 20 x) = some (content x)) →
      ∀ got, densityInputs fl lines (densityLocal fl job lines fun _ => none) = .ok got → got = xs.map content := by
  intro h
  have hl : List.Forall₂ (DensityLine decimals) fractional [⟨false, [2], 1⟩, ⟨false, [2, 5], 1⟩] := by
    refine .cons ⟨"20".toList, "2".toList, rfl, ?_, ?_, ?_, ?_, ?_⟩
      (.cons ⟨"20".toList, "2.5".toList, rfl, ?_, ?_, ?_, ?_, ?_⟩ .nil) <;>
      first | (unfold Word; decide +kernel) | decide +kernel
  have := h decimals decimals_ok fractional _ hl (by
      have : ∀ x ∈ ([⟨false, [2], 1⟩, ⟨false, [2, 5], 1⟩] : List Decimal), decimals.decimal x = some x ∧
        x.neg = false := by decide +kernel
      exact fun x hx => ⟨x, this x hx⟩) (by decide)
    (fun a => match a with | .density _ x => some x | _ => none) id (fun _ _ => rfl)
    [⟨false, [2], 1⟩, ⟨false, [2], 1⟩] (by rfl)
  revert this
  decide

/-- **C78** Two blanks are one for the shell and not for Python: the run happens, but the plots fail. -/
theorem C78_blanks_refuted : ¬ ∀ (line : Text) (disk : Disk Nat) (job : Args Decimal → Option Nat) (args : Args Decimal),
    parse decimals ("density".toList :: shellWords line) = some args → (job args).isSome →
    ∃ got, densityInputs decimals [line] (densityLocal decimals job [line] disk) = .ok got := by
  intro h
  obtain ⟨got, hg⟩ := h "20  1".toList (fun _ => none) (fun _ => some 0) (.density 20 ⟨false, [1], 1⟩)
    (by decide +kernel) rfl
  have : densityInputs decimals ["20  1".toList] (densityLocal decimals (fun _ => some 0) ["20  1".toList] fun _ => none) =
      (.error .valueError : Except PyError (List Nat)) := by rfl
  rw [this] at hg
  cases hg

-- the hypotheses of `C78_node`, and a case in which the file is not found
example : Word "0.5".toList ∧ decimals.rustParse "0.5".toList = some ⟨false, [5], 0⟩ ∧
    decimals.decimal ⟨false, [5], 0⟩ = some ⟨false, [5], 0⟩ ∧ (⟨false, [5], 0⟩ : Decimal).Same ∧
    decimals.rustParse "0.00005".toList = some ⟨false, [5], -4⟩ ∧ ¬ (⟨false, [5], -4⟩ : Decimal).Same := by
  refine ⟨by unfold Word; decide +kernel, by decide +kernel, by decide +kernel, .inr (.inl ⟨by decide, by decide⟩),
    by decide +kernel, ?_⟩
  rintro (h | ⟨h, _⟩ | h) <;> revert h <;> decide

-- the hypotheses of `C78_names` and `C78_hpc`
example : (Args.density 20 ⟨false, [2, 5], 1⟩).Proper decimals ∧
    (Args.node ⟨false, [5], 0⟩ "constant" ⟨false, [1], 1⟩ "reziprocal_linear").Proper decimals ∧
    densityDat.length = 21 ∧ (List.range' 1 21).reverse.Perm (List.range' 1 21) :=
  ⟨by show (decimals.decimal _).isSome; decide +kernel, ⟨by decide +kernel, by decide +kernel, by simp, by simp⟩, by decide +kernel, List.reverse_perm _⟩

end Verif.Files
