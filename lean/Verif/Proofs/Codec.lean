import Verif.Model.Codec
/-!
# Round trips of the file formats
-/

namespace Verif

namespace Bincode

/-- Decoding what was encoded gives the value back, whatever follows in the file. -/
def Lawful {α : Type} (enc : α → Bytes) (dec : Bytes → Option (α × Bytes)) (ok : α → Prop) : Prop :=
  ∀ x r, ok x → dec (enc x ++ r) = some (x, r)

/-- Whatever is decoded was encoded. -/
def Canonical {α : Type} (enc : α → Bytes) (dec : Bytes → Option (α × Bytes)) (ok : α → Prop) : Prop :=
  ∀ bs x r, dec bs = some (x, r) → bs = enc x ++ r ∧ ok x

/-- The value fits into a `u64`. -/
def okUsize (x : Nat) : Prop := x < 2 ^ 64

def okVec {α : Type} (ok : α → Prop) (l : List α) : Prop := l.length < 2 ^ 64 ∧ ∀ x ∈ l, ok x

def okPair {α β : Type} (okA : α → Prop) (okB : β → Prop) (p : α × β) : Prop := okA p.1 ∧ okB p.2

theorem leBytes_length : ∀ n x, (leBytes n x).length = n := by
  intro n
  induction n with
  | zero => intro x; rfl
  | succ n ih => intro x; simp [leBytes, ih]

theorem ofLeBytes_leBytes : ∀ n x, x < 256 ^ n → ofLeBytes (leBytes n x) = x := by
  intro n
  induction n with
  | zero => intro x hx; simp at hx; simp [leBytes, ofLeBytes, hx]
  | succ n ih =>
    intro x hx
    have h1 : x / 256 < 256 ^ n := by
      rw [Nat.pow_succ] at hx
      exact Nat.div_lt_of_lt_mul (by rw [Nat.mul_comm]; exact hx)
    have h2 : (UInt8.ofNat (x % 256)).toNat = x % 256 := by
      simp
    simp only [leBytes, ofLeBytes, ih _ h1, h2]
    omega

theorem leBytes_ofLeBytes (bs : Bytes) : leBytes bs.length (ofLeBytes bs) = bs := by
  induction bs with
  | nil => rfl
  | cons b bs ih =>
    have hb : b.toNat < 256 := b.toNat_lt
    simp only [List.length_cons, leBytes, ofLeBytes]
    have h1 : (b.toNat + 256 * ofLeBytes bs) % 256 = b.toNat := by omega
    have h2 : (b.toNat + 256 * ofLeBytes bs) / 256 = ofLeBytes bs := by omega
    rw [h1, h2, ih]
    simp

theorem ofLeBytes_lt (bs : Bytes) : ofLeBytes bs < 256 ^ bs.length := by
  induction bs with
  | nil => simp [ofLeBytes]
  | cons b bs ih =>
    have hb : b.toNat < 256 := b.toNat_lt
    simp only [ofLeBytes, List.length_cons, Nat.pow_succ]
    omega

theorem lawful_usize : Lawful encUsize decUsize okUsize := by
  intro x r hx
  have hl := leBytes_length 8 x
  simp only [decUsize, encUsize, List.length_append, hl]
  rw [if_neg (by omega)]
  rw [List.take_append_of_le_length (by omega), List.drop_append_of_le_length (by omega),
    List.take_of_length_le (by omega), List.drop_of_length_le (by omega)]
  rw [ofLeBytes_leBytes 8 x (by simpa [okUsize] using hx)]
  rfl

theorem canonical_usize : Canonical encUsize decUsize okUsize := by
  intro bs x r h
  simp only [decUsize] at h
  split at h
  · cases h
  · rename_i hl
    simp only [Option.some.injEq, Prod.mk.injEq] at h
    obtain ⟨rfl, rfl⟩ := h
    have h8 : (bs.take 8).length = 8 := by simp; omega
    refine ⟨?_, ?_⟩
    · have := leBytes_ofLeBytes (bs.take 8)
      rw [h8] at this
      rw [encUsize, this, List.take_append_drop]
    · have := ofLeBytes_lt (bs.take 8)
      rw [h8] at this
      exact this

theorem decMany_enc {α : Type} {enc : α → Bytes} {dec : Bytes → Option (α × Bytes)} {ok : α → Prop}
    (h : Lawful enc dec ok) (l : List α) (r : Bytes) (hl : ∀ x ∈ l, ok x) :
    decMany dec l.length (l.flatMap enc ++ r) = some (l, r) := by
  induction l with
  | nil => rfl
  | cons x l ih =>
    simp only [List.length_cons, decMany, List.flatMap_cons, List.append_assoc]
    rw [h x _ (hl x List.mem_cons_self)]
    simp only
    rw [ih fun y hy => hl y (List.mem_cons_of_mem _ hy)]

theorem decMany_inv {α : Type} {enc : α → Bytes} {dec : Bytes → Option (α × Bytes)} {ok : α → Prop}
    (h : Canonical enc dec ok) : ∀ (n : Nat) (bs : Bytes) (l : List α) (r : Bytes),
    decMany dec n bs = some (l, r) → l.length = n ∧ bs = l.flatMap enc ++ r ∧ ∀ x ∈ l, ok x := by
  intro n
  induction n with
  | zero =>
    intro bs l r hd
    simp only [decMany, Option.some.injEq, Prod.mk.injEq] at hd
    obtain ⟨rfl, rfl⟩ := hd
    simp
  | succ n ih =>
    intro bs l r hd
    simp only [decMany] at hd
    split at hd
    · cases hd
    · rename_i x bs1 h1
      split at hd
      · cases hd
      · rename_i xs bs2 h2
        simp only [Option.some.injEq, Prod.mk.injEq] at hd
        obtain ⟨rfl, rfl⟩ := hd
        obtain ⟨h3, h4, h5⟩ := ih _ _ _ h2
        obtain ⟨h6, h7⟩ := h _ _ _ h1
        refine ⟨by simp [h3], by simp [h6, h4], ?_⟩
        intro y hy
        rcases List.mem_cons.1 hy with rfl | hy
        · exact h7
        · exact h5 y hy

theorem lawful_vec {α : Type} {enc : α → Bytes} {dec : Bytes → Option (α × Bytes)} {ok : α → Prop}
    (h : Lawful enc dec ok) : Lawful (encVec enc) (decVec dec) (okVec ok) := by
  intro l r hl
  simp only [decVec, encVec, List.append_assoc]
  rw [lawful_usize l.length _ hl.1]
  exact decMany_enc h l r hl.2

theorem canonical_vec {α : Type} {enc : α → Bytes} {dec : Bytes → Option (α × Bytes)} {ok : α → Prop}
    (h : Canonical enc dec ok) : Canonical (encVec enc) (decVec dec) (okVec ok) := by
  intro bs l r hd
  simp only [decVec] at hd
  split at hd
  · cases hd
  · rename_i n bs1 h1
    obtain ⟨h2, h3⟩ := canonical_usize _ _ _ h1
    obtain ⟨h4, h5, h6⟩ := decMany_inv h _ _ _ _ hd
    subst h4
    exact ⟨by simp [encVec, h2, h5], h3, h6⟩

theorem lawful_pair {α β : Type} {encA : α → Bytes} {decA : Bytes → Option (α × Bytes)}
    {okA : α → Prop} {encB : β → Bytes} {decB : Bytes → Option (β × Bytes)} {okB : β → Prop}
    (hA : Lawful encA decA okA) (hB : Lawful encB decB okB) :
    Lawful (encPair encA encB) (decPair decA decB) (okPair okA okB) := by
  intro p r hp
  simp only [decPair, encPair, List.append_assoc]
  rw [hA p.1 _ hp.1]
  simp only
  rw [hB p.2 _ hp.2]

theorem canonical_pair {α β : Type} {encA : α → Bytes} {decA : Bytes → Option (α × Bytes)}
    {okA : α → Prop} {encB : β → Bytes} {decB : Bytes → Option (β × Bytes)} {okB : β → Prop}
    (hA : Canonical encA decA okA) (hB : Canonical encB decB okB) :
    Canonical (encPair encA encB) (decPair decA decB) (okPair okA okB) := by
  intro bs p r hd
  simp only [decPair] at hd
  split at hd
  · cases hd
  · rename_i a bs1 h1
    split at hd
    · cases hd
    · rename_i b bs2 h2
      simp only [Option.some.injEq, Prod.mk.injEq] at hd
      obtain ⟨rfl, rfl⟩ := hd
      obtain ⟨h3, h4⟩ := hA _ _ _ h1
      obtain ⟨h5, h6⟩ := hB _ _ _ h2
      exact ⟨by simp [encPair, h3, h5], h4, h6⟩

/-- All numbers and lengths of an adjacency list or of measurement steps fit into a `u64`. -/
def okGraph : List (List Nat) → Prop := okVec (okVec okUsize)
def okOrder : OrderGraph → Prop := okVec (okVec (okPair okUsize (okVec okUsize)))
def okPath (p : Path) : Prop := okUsize p.time ∧ okUsize p.space ∧ okGraph p.steps
def okPaths : List Path → Prop := okVec okPath

theorem lawful_graph : Lawful encGraph decGraph okGraph := lawful_vec (lawful_vec lawful_usize)
theorem canonical_graph : Canonical encGraph decGraph okGraph :=
  canonical_vec (canonical_vec canonical_usize)

theorem lawful_order : Lawful encOrder decOrder okOrder :=
  lawful_vec (lawful_vec (lawful_pair lawful_usize (lawful_vec lawful_usize)))
theorem canonical_order : Canonical encOrder decOrder okOrder :=
  canonical_vec (canonical_vec (canonical_pair canonical_usize (canonical_vec canonical_usize)))

theorem lawful_path : Lawful encPath decPath okPath := by
  intro p r hp
  have := lawful_pair lawful_usize (lawful_pair lawful_usize lawful_graph) (p.time, p.space, p.steps) r hp
  simp only [encPair] at this
  simp only [decPath, encPath]
  rw [show encUsize p.time ++ encUsize p.space ++ encGraph p.steps ++ r =
    encUsize p.time ++ (encUsize p.space ++ encGraph p.steps) ++ r by simp]
  rw [this]

theorem canonical_path : Canonical encPath decPath okPath := by
  intro bs p r hd
  simp only [decPath] at hd
  split at hd
  · cases hd
  · rename_i time space steps bs1 h1
    simp only [Option.some.injEq, Prod.mk.injEq] at hd
    obtain ⟨rfl, rfl⟩ := hd
    obtain ⟨h2, h3⟩ := canonical_pair canonical_usize (canonical_pair canonical_usize canonical_graph) _ _ _ h1
    exact ⟨by simpa [encPair, encPath] using h2, h3⟩

theorem lawful_paths : Lawful encPaths decPaths okPaths := lawful_vec lawful_path
theorem canonical_paths : Canonical encPaths decPaths okPaths := canonical_vec canonical_path

end Bincode

namespace Json

open Bincode (okUsize okVec okPair okGraph okOrder okPath okPaths)

/-- What may follow a number. -/
def Stop (r : Bytes) : Prop :=
  ∀ b, r.head? = some b → isDigit b = false ∧ b ≠ 46 ∧ b ≠ 101 ∧ b ≠ 69

/-- Decoding what was encoded gives the value back if something follows that cannot continue a
number. -/
def Lawful {α : Type} (enc : α → Bytes) (dec : Bytes → Option (α × Bytes)) (ok : α → Prop) : Prop :=
  ∀ x r, ok x → Stop r → dec (enc x ++ r) = some (x, r)

theorem skipWs_cons {b : UInt8} (h : isWs b = false) (bs : Bytes) : skipWs (b :: bs) = b :: bs := by
  simp [skipWs, h]

theorem digit_ofNat {k : Nat} (hk : k < 10) : isDigit (UInt8.ofNat (48 + k)) = true ∧
    (UInt8.ofNat (48 + k)).toNat = 48 + k ∧ isWs (UInt8.ofNat (48 + k)) = false ∧
    UInt8.ofNat (48 + k) ≠ 93 ∧ (UInt8.ofNat (48 + k) = 48 → k = 0) := by
  have : ∀ k : Fin 10, isDigit (UInt8.ofNat (48 + k.1)) = true ∧
    (UInt8.ofNat (48 + k.1)).toNat = 48 + k.1 ∧ isWs (UInt8.ofNat (48 + k.1)) = false ∧
    UInt8.ofNat (48 + k.1) ≠ 93 ∧ (UInt8.ofNat (48 + k.1) = 48 → k.1 = 0) := by decide
  exact this ⟨k, hk⟩

theorem value_append (as : Bytes) (d : UInt8) : value (as ++ [d]) = 10 * value as + (d.toNat - 48) := by
  simp [value, List.foldl_append]

theorem digits_spec : ∀ n x, x < 10 ^ n → 0 < n →
    value (digits n x) = x ∧ (∀ d ∈ digits n x, isDigit d = true) ∧
    (∃ b t, digits n x = b :: t ∧ isWs b = false ∧ b ≠ 93) ∧
    ((digits n x).length ≠ 1 → (digits n x).head? ≠ some 48) := by
  intro n
  induction n with
  | zero => intro x _ h; omega
  | succ n ih =>
    intro x hx _
    by_cases h10 : x < 10
    · have hd := digit_ofNat h10
      simp only [digits, if_pos h10]
      refine ⟨?_, ?_, ⟨_, [], rfl, hd.2.2.1, hd.2.2.2.1⟩, by simp⟩
      · simp only [value, List.foldl_cons, List.foldl_nil, hd.2.1]
        omega
      · intro d hd'
        rw [List.mem_singleton.1 hd']
        exact hd.1
    · have hx' : x / 10 < 10 ^ n := by
        rw [Nat.pow_succ] at hx
        exact Nat.div_lt_of_lt_mul (by rw [Nat.mul_comm]; exact hx)
      have hn : 0 < n := by
        rcases Nat.eq_zero_or_pos n with rfl | h
        · simp at hx; omega
        · exact h
      obtain ⟨h1, h2, ⟨b, t, h3, h3', h3''⟩, h4⟩ := ih (x / 10) hx' hn
      have hd := digit_ofNat (k := x % 10) (by omega)
      simp only [digits, if_neg h10]
      refine ⟨?_, ?_, ⟨b, t ++ [UInt8.ofNat (48 + x % 10)], by rw [h3]; rfl, h3', h3''⟩, ?_⟩
      · rw [value_append, h1, hd.2.1]
        omega
      · intro d hd'
        rcases List.mem_append.1 hd' with h | h
        · exact h2 d h
        · rw [List.mem_singleton.1 h]
          exact hd.1
      · intro _
        rw [h3]
        simp only [List.cons_append, List.head?_cons, ne_eq, Option.some.injEq]
        rintro rfl
        by_cases hl : (digits n (x / 10)).length = 1
        · rw [h3] at hl
          have ht : t = [] := by simpa using hl
          have hv : value (digits n (x / 10)) = 0 := by rw [h3, ht]; rfl
          rw [h1] at hv
          omega
        · exact h4 hl (by rw [h3]; rfl)

theorem takeWhile_digits {ds r : Bytes} (hd : ∀ d ∈ ds, isDigit d = true)
    (hr : ∀ b, r.head? = some b → isDigit b = false) :
    (ds ++ r).takeWhile isDigit = ds ∧ (ds ++ r).dropWhile isDigit = r := by
  have hr' : r.takeWhile isDigit = [] ∧ r.dropWhile isDigit = r := by
    cases r with
    | nil => simp
    | cons b r => simp [hr b rfl]
  rw [List.takeWhile_append_of_pos hd, List.dropWhile_append_of_pos hd, hr'.1, hr'.2]
  simp

theorem lawful_usize : Lawful encUsize decUsize okUsize := by
  intro x r hx hr
  have hx' : x < 10 ^ 20 := by
    simp only [okUsize] at hx
    omega
  obtain ⟨h1, h2, ⟨b, t, h3, h3', _⟩, h4⟩ := digits_spec 20 x hx' (by omega)
  obtain ⟨h5, h6⟩ := takeWhile_digits h2 (r := r) (fun b hb => (hr b hb).1)
  have hs : skipWs (digits 20 x ++ r) = digits 20 x ++ r := by
    rw [h3]
    exact skipWs_cons h3' _
  simp only [decUsize, encUsize, hs, h5, h6, h1]
  rw [if_neg, if_neg, if_pos (show x < 2 ^ 64 from hx)]
  · intro h
    simp only [Bool.or_eq_true, beq_iff_eq] at h
    rcases h with (h | h) | h
    · exact (hr _ h).2.1 rfl
    · exact (hr _ h).2.2.1 rfl
    · exact (hr _ h).2.2.2 rfl
  · intro h
    simp only [Bool.or_eq_true, Bool.and_eq_true, beq_iff_eq, bne_iff_ne] at h
    rcases h with h | ⟨h, h'⟩
    · rw [h3] at h; simp at h
    · exact h4 h h'

theorem starts_usize : ∀ x, okUsize x → ∃ b t, encUsize x = b :: t ∧ isWs b = false ∧ b ≠ 93 := by
  intro x hx
  have hx' : x < 10 ^ 20 := by
    simp only [okUsize] at hx
    omega
  exact (digits_spec 20 x hx' (by omega)).2.2.1

theorem stop_of {b : UInt8} {r : Bytes} (h : b = 44 ∨ b = 93 ∨ b = 125) : Stop (b :: r) := by
  intro c hc
  simp only [List.head?_cons, Option.some.injEq] at hc
  subst hc
  rcases h with rfl | rfl | rfl <;> decide

theorem expect_cons {c : UInt8} {r : Bytes} (h : isWs c = false) : expect c (c :: r) = some r := by
  simp [expect, skipWs_cons h]

/-- The separators and elements after the first one. -/
def tailBytes {α : Type} (enc : α → Bytes) (l : List α) : Bytes := l.flatMap fun x => 44 :: enc x

theorem joinComma_cons {α : Type} (enc : α → Bytes) : ∀ (l : List α) (x : α),
    joinComma ((x :: l).map enc) = enc x ++ tailBytes enc l := by
  intro l
  induction l with
  | nil => intro x; simp [joinComma, tailBytes]
  | cons y l ih =>
    intro x
    have := ih y
    simp only [List.map_cons, joinComma, tailBytes, List.flatMap_cons] at this ⊢
    rw [this]
    simp

theorem decMore_enc {α : Type} {enc : α → Bytes} {dec : Bytes → Option (α × Bytes)} {ok : α → Prop}
    (h : Lawful enc dec ok) : ∀ (l : List α) (fuel : Nat) (r : Bytes), (∀ x ∈ l, ok x) →
    l.length < fuel → decMore dec fuel (tailBytes enc l ++ 93 :: r) = some (l, r) := by
  intro l
  induction l with
  | nil =>
    intro fuel r _ hf
    cases fuel with
    | zero => omega
    | succ fuel => simp [decMore, tailBytes, skipWs_cons (show isWs 93 = false by decide)]
  | cons x l ih =>
    intro fuel r hl hf
    cases fuel with
    | zero => omega
    | succ fuel =>
      simp only [tailBytes, List.flatMap_cons, List.cons_append, List.append_assoc, decMore]
      rw [skipWs_cons (show isWs 44 = false by decide)]
      simp only [show (44 : UInt8) ≠ 93 by decide, if_false, if_true]
      have hstop : Stop ((l.flatMap fun x => 44 :: enc x) ++ 93 :: r) := by
        cases l with
        | nil => exact stop_of (.inr (.inl rfl))
        | cons y l => exact stop_of (.inl rfl)
      rw [h x _ (hl x List.mem_cons_self) hstop]
      simp only
      have := ih fuel r (fun y hy => hl y (List.mem_cons_of_mem _ hy)) (by simpa using hf)
      simp only [tailBytes] at this
      rw [this]

theorem length_tailBytes {α : Type} (enc : α → Bytes) (l : List α) : l.length ≤ (tailBytes enc l).length := by
  induction l with
  | nil => simp
  | cons x l ih =>
    simp only [tailBytes, List.flatMap_cons, List.length_append, List.length_cons] at ih ⊢
    omega

theorem lawful_vec {α : Type} {enc : α → Bytes} {dec : Bytes → Option (α × Bytes)} {ok : α → Prop}
    (h : Lawful enc dec ok) (hs : ∀ x, ok x → ∃ b t, enc x = b :: t ∧ isWs b = false ∧ b ≠ 93) :
    Lawful (encVec enc) (decVec dec) (okVec ok) := by
  intro l r hl _
  cases l with
  | nil =>
    simp only [encVec, List.map_nil, joinComma, decVec, List.cons_append, List.nil_append]
    rw [expect_cons (by decide)]
    simp only
    rw [expect_cons (by decide)]
  | cons x l =>
    simp only [encVec, decVec, joinComma_cons, List.cons_append, List.append_assoc]
    rw [expect_cons (by decide)]
    simp only
    obtain ⟨b, t, hb, hb', hb''⟩ := hs x (hl.2 x List.mem_cons_self)
    have hne : expect 93 (enc x ++ (tailBytes enc l ++ 93 :: r)) = none := by
      rw [hb]
      simp [expect, skipWs_cons hb', hb'']
    simp only [List.nil_append]
    rw [hne]
    simp only
    have hstop : Stop (tailBytes enc l ++ 93 :: r) := by
      cases l with
      | nil => exact stop_of (.inr (.inl rfl))
      | cons y l => exact stop_of (.inl rfl)
    rw [h x _ (hl.2 x List.mem_cons_self) hstop]
    simp only
    rw [decMore_enc h l _ r (fun y hy => hl.2 y (List.mem_cons_of_mem _ hy)) (by
      have := length_tailBytes enc l
      simp only [List.length_append, List.length_cons]
      omega)]

theorem starts_vec {α : Type} (enc : α → Bytes) (l : List α) :
    ∃ b t, encVec enc l = b :: t ∧ isWs b = false ∧ b ≠ 93 :=
  ⟨91, _, rfl, by decide, by decide⟩

theorem lawful_pair {α β : Type} {encA : α → Bytes} {decA : Bytes → Option (α × Bytes)}
    {okA : α → Prop} {encB : β → Bytes} {decB : Bytes → Option (β × Bytes)} {okB : β → Prop}
    (hA : Lawful encA decA okA) (hB : Lawful encB decB okB) :
    Lawful (encPair encA encB) (decPair decA decB) (okPair okA okB) := by
  intro p r hp _
  simp only [decPair, encPair, List.cons_append, List.append_assoc, List.nil_append]
  rw [expect_cons (by decide)]
  simp only [Option.bind_eq_bind, Option.bind_some]
  rw [hA p.1 _ hp.1 (stop_of (.inl rfl))]
  simp only [Option.bind_some]
  rw [expect_cons (by decide)]
  simp only [Option.bind_some]
  rw [hB p.2 _ hp.2 (stop_of (.inr (.inl rfl)))]
  simp only [Option.bind_some]
  rw [expect_cons (by decide)]
  rfl

theorem starts_pair {α β : Type} (encA : α → Bytes) (encB : β → Bytes) (p : α × β) :
    ∃ b t, encPair encA encB p = b :: t ∧ isWs b = false ∧ b ≠ 93 :=
  ⟨91, _, rfl, by decide, by decide⟩

theorem lawful_graph : Lawful encGraph decGraph okGraph :=
  lawful_vec (lawful_vec lawful_usize starts_usize) fun x _ => starts_vec _ x

theorem lawful_order : Lawful encOrder decOrder okOrder :=
  lawful_vec (lawful_vec (lawful_pair lawful_usize (lawful_vec lawful_usize starts_usize))
    fun x _ => starts_pair _ _ x) fun x _ => starts_vec _ x

theorem expectAll_append (key r : Bytes) (h : skipWs (key ++ r) = key ++ r) :
    expectAll key (key ++ r) = some r := by
  simp [expectAll, h]

theorem lawful_path : Lawful encPath decPath okPath := by
  intro p r hp _
  simp only [decPath, encPath, List.cons_append, List.append_assoc, List.nil_append]
  rw [expect_cons (by decide)]
  simp only [Option.bind_eq_bind, Option.bind_some]
  rw [expectAll_append keyTime _ (skipWs_cons (by decide) _)]
  simp only [Option.bind_some]
  rw [lawful_usize p.time _ hp.1 (stop_of (.inl rfl))]
  simp only [Option.bind_some]
  rw [expect_cons (by decide)]
  simp only [Option.bind_some]
  rw [expectAll_append keySpace _ (skipWs_cons (by decide) _)]
  simp only [Option.bind_some]
  rw [lawful_usize p.space _ hp.2.1 (stop_of (.inl rfl))]
  simp only [Option.bind_some]
  rw [expect_cons (by decide)]
  simp only [Option.bind_some]
  rw [expectAll_append keySteps _ (skipWs_cons (by decide) _)]
  simp only [Option.bind_some]
  rw [lawful_graph p.steps _ hp.2.2 (stop_of (.inr (.inr rfl)))]
  simp only [Option.bind_some]
  rw [expect_cons (by decide)]
  rfl

theorem lawful_paths : Lawful encPaths decPaths okPaths :=
  lawful_vec lawful_path fun _ _ => ⟨123, _, rfl, by decide, by decide⟩

/-! What is accepted -/

/-- A text without the white space. -/
def strip (bs : Bytes) : Bytes := bs.filter fun b => !isWs b

/-- What is accepted is the encoding up to white space, which is in front of a token. -/
def Canonical {α : Type} (enc : α → Bytes) (dec : Bytes → Option (α × Bytes)) : Prop :=
  ∀ bs x r, dec bs = some (x, r) → strip bs = enc x ++ strip r

theorem strip_skipWs : ∀ bs, strip (skipWs bs) = strip bs
  | [] => rfl
  | b :: bs => by
    simp only [skipWs]
    split
    · rename_i h
      rw [strip_skipWs bs]
      simp [strip, h]
    · rfl

theorem strip_append (a b : Bytes) : strip (a ++ b) = strip a ++ strip b := List.filter_append _ _

theorem strip_cons {b : UInt8} (h : isWs b = false) (bs : Bytes) : strip (b :: bs) = b :: strip bs := by
  simp [strip, h]

theorem digit_range {d : UInt8} (h : isDigit d = true) : 48 ≤ d.toNat ∧ d.toNat ≤ 57 := by
  simp only [isDigit, Bool.and_eq_true, decide_eq_true_eq, UInt8.le_iff_toNat_le] at h
  exact h

theorem digit_not_ws {d : UInt8} (h : isDigit d = true) : isWs d = false := by
  have h1 := digit_range h
  simp only [isWs, Bool.or_eq_false_iff, beq_eq_false_iff_ne, ne_eq]
  refine ⟨⟨⟨?_, ?_⟩, ?_⟩, ?_⟩ <;> · rintro rfl; simp at h1

theorem ofNat_digit {d : UInt8} (h : isDigit d = true) : UInt8.ofNat (48 + (d.toNat - 48)) = d := by
  have h1 := digit_range h
  rw [show 48 + (d.toNat - 48) = d.toNat by omega]
  exact UInt8.ofNat_toNat

/-- A number without leading zeros is at least a power of ten. -/
theorem le_value : ∀ (n : Nat) (ds : Bytes), ds.length = n → (∀ d ∈ ds, isDigit d = true) → ds ≠ [] → ds.head? ≠ some 48 →
    10 ^ (n - 1) ≤ value ds := by
  intro n
  induction n with
  | zero =>
    intro ds hn _ hne _
    exact (hne (List.eq_nil_of_length_eq_zero hn)).elim
  | succ n ih =>
    intro ds hn hd hne hh
    obtain ⟨as, d, rfl⟩ : ∃ as d, ds = as ++ [d] := ⟨ds.dropLast, ds.getLast hne, (List.dropLast_concat_getLast hne).symm⟩
    have hn' : as.length = n := by simpa using hn
    rw [value_append]
    by_cases has : as = []
    · subst has
      have hdig := digit_range (hd d (by simp))
      have : d.toNat ≠ 48 := by
        intro h
        exact hh (by simp [← UInt8.toNat_inj, h])
      simp only [List.length_nil] at hn'
      subst hn'
      simp only [value, List.foldl_nil, Nat.add_sub_cancel, Nat.pow_zero]
      omega
    · have h1 := ih as hn' (fun x hx => hd x (by simp [hx])) has (by
        intro h
        apply hh
        cases as with
        | nil => simp at h
        | cons a as => simpa using h)
      have hpos : 0 < n := by
        rw [← hn']
        exact List.length_pos_iff.2 has
      have : 10 ^ n = 10 * 10 ^ (n - 1) := by
        rw [← Nat.pow_succ', Nat.succ_eq_add_one, Nat.sub_add_cancel hpos]
      simp only [Nat.add_sub_cancel]
      omega

/-- The digits of the number that digits stand for. -/
theorem digits_value : ∀ (n : Nat) (ds : Bytes), ds.length ≤ n → (∀ d ∈ ds, isDigit d = true) → ds ≠ [] →
    (ds.length ≠ 1 → ds.head? ≠ some 48) → digits n (value ds) = ds := by
  intro n
  induction n with
  | zero =>
    intro ds hn _ hne _
    exact (hne (List.eq_nil_of_length_eq_zero (by omega))).elim
  | succ n ih =>
    intro ds hn hd hne hh
    obtain ⟨as, d, rfl⟩ : ∃ as d, ds = as ++ [d] := ⟨ds.dropLast, ds.getLast hne, (List.dropLast_concat_getLast hne).symm⟩
    have hn' : as.length ≤ n := by simpa using hn
    have hdd := hd d (by simp)
    have hdig := digit_range hdd
    have hv := value_append as d
    by_cases has : as = []
    · subst has
      have hv0 : value ([] : Bytes) = 0 := rfl
      rw [hv0] at hv
      rw [digits, if_pos (by omega), hv, Nat.mul_zero, Nat.zero_add, ofNat_digit hdd]
      rfl
    · have hh' : as.head? ≠ some 48 := by
        intro h
        refine hh ?_ ?_
        · simp [has]
        · cases as with
          | nil => simp at h
          | cons a as => simpa using h
      have has' : ∀ x ∈ as, isDigit x = true := fun x hx => hd x (by simp [hx])
      have h1 := le_value as.length as rfl has' has hh'
      have h2 : 0 < 10 ^ (as.length - 1) := Nat.pow_pos (by omega)
      rw [digits, if_neg (by omega), hv, show (10 * value as + (d.toNat - 48)) / 10 = value as by omega,
        show (10 * value as + (d.toNat - 48)) % 10 = d.toNat - 48 by omega, ofNat_digit hdd,
        ih as hn' has' has fun _ => hh']

theorem canonical_usize : Canonical encUsize decUsize := by
  intro bs x r h
  simp only [decUsize] at h
  split at h
  · cases h
  · rename_i h1
    split at h
    · cases h
    · split at h
      · rename_i h3
        simp only [Option.some.injEq, Prod.mk.injEq] at h
        obtain ⟨rfl, rfl⟩ := h
        rw [← strip_skipWs bs]
        generalize skipWs bs = cs at *
        have hd : ∀ d ∈ cs.takeWhile isDigit, isDigit d = true := fun d hd => List.all_eq_true.1 List.all_takeWhile d hd
        have hs : strip (cs.takeWhile isDigit) = cs.takeWhile isDigit :=
          List.filter_eq_self.2 fun d h => by simp [digit_not_ws (hd d h)]
        simp only [Bool.or_eq_true, List.isEmpty_iff, Bool.and_eq_true, bne_iff_ne, beq_iff_eq, not_or, not_and] at h1
        obtain ⟨hne, hh⟩ := h1
        have hlen : (cs.takeWhile isDigit).length ≤ 20 := by
          refine Nat.le_of_not_lt fun hc => ?_
          have h4 := le_value _ _ rfl hd hne (hh (by omega))
          have h5 : 10 ^ 20 ≤ 10 ^ ((cs.takeWhile isDigit).length - 1) := Nat.pow_le_pow_right (by omega) (by omega)
          omega
        rw [encUsize, digits_value 20 _ hlen hd hne hh]
        have h6 : strip cs = strip (cs.takeWhile isDigit ++ cs.dropWhile isDigit) := by
          rw [List.takeWhile_append_dropWhile]
        rw [h6, strip_append, hs]
      · cases h

theorem expect_inv {c : UInt8} {bs r : Bytes} (hc : isWs c = false) (h : expect c bs = some r) :
    strip bs = c :: strip r := by
  rw [← strip_skipWs bs]
  simp only [expect] at h
  split at h
  · cases h
  · rename_i b bs' h1
    split at h
    · rename_i h2
      simp only [Option.some.injEq] at h
      rw [h1, h2, h, strip_cons hc]
    · cases h

theorem decMore_inv {α : Type} {enc : α → Bytes} {dec : Bytes → Option (α × Bytes)} (h : Canonical enc dec) :
    ∀ (fuel : Nat) (bs : Bytes) (l : List α) (r : Bytes), decMore dec fuel bs = some (l, r) →
    strip bs = tailBytes enc l ++ 93 :: strip r := by
  intro fuel
  induction fuel with
  | zero => intro bs l r hd; simp [decMore] at hd
  | succ fuel ih =>
    intro bs l r hd
    rw [← strip_skipWs bs]
    simp only [decMore] at hd
    split at hd
    · cases hd
    · rename_i b bs' h1
      rw [h1]
      split at hd
      · rename_i hb
        simp only [Option.some.injEq, Prod.mk.injEq] at hd
        obtain ⟨rfl, rfl⟩ := hd
        rw [hb, strip_cons (by decide)]
        rfl
      · split at hd
        · rename_i hb
          split at hd
          · cases hd
          · rename_i x bs1 h2
            split at hd
            · cases hd
            · rename_i xs bs2 h3
              simp only [Option.some.injEq, Prod.mk.injEq] at hd
              obtain ⟨rfl, rfl⟩ := hd
              rw [hb, strip_cons (by decide), h _ _ _ h2, ih _ _ _ h3]
              simp [tailBytes]
        · cases hd

theorem canonical_vec {α : Type} {enc : α → Bytes} {dec : Bytes → Option (α × Bytes)} (h : Canonical enc dec) :
    Canonical (encVec enc) (decVec dec) := by
  intro bs l r hd
  simp only [decVec] at hd
  split at hd
  · cases hd
  · rename_i bs1 h1
    rw [expect_inv (by decide) h1]
    split at hd
    · rename_i bs2 h2
      simp only [Option.some.injEq, Prod.mk.injEq] at hd
      obtain ⟨rfl, rfl⟩ := hd
      rw [expect_inv (by decide) h2]
      rfl
    · split at hd
      · cases hd
      · rename_i x bs2 h2
        split at hd
        · cases hd
        · rename_i xs bs3 h3
          simp only [Option.some.injEq, Prod.mk.injEq] at hd
          obtain ⟨rfl, rfl⟩ := hd
          rw [h _ _ _ h2, decMore_inv h _ _ _ _ h3, encVec, joinComma_cons]
          simp

theorem canonical_pair {α β : Type} {encA : α → Bytes} {decA : Bytes → Option (α × Bytes)}
    {encB : β → Bytes} {decB : Bytes → Option (β × Bytes)} (hA : Canonical encA decA) (hB : Canonical encB decB) :
    Canonical (encPair encA encB) (decPair decA decB) := by
  intro bs p r hd
  simp only [decPair, Option.bind_eq_bind, Option.bind_eq_some_iff, Option.pure_def, Option.some.injEq, Prod.mk.injEq] at hd
  obtain ⟨b1, h1, ⟨a, b2⟩, h2, b3, h3, ⟨b, b4⟩, h4, b5, h5, rfl, rfl⟩ := hd
  rw [expect_inv (by decide) h1, hA _ _ _ h2, expect_inv (by decide) h3, hB _ _ _ h4, expect_inv (by decide) h5]
  simp [encPair]

theorem canonical_graph : Canonical encGraph decGraph := canonical_vec (canonical_vec canonical_usize)

theorem canonical_order : Canonical encOrder decOrder :=
  canonical_vec (canonical_vec (canonical_pair canonical_usize (canonical_vec canonical_usize)))

theorem decode_inv {α : Type} {enc : α → Bytes} {dec : Bytes → Option (α × Bytes)} (h : Canonical enc dec) {bs : Bytes}
    {x : α} (hd : decode dec bs = some x) : strip bs = enc x := by
  simp only [decode] at hd
  split at hd
  · cases hd
  · rename_i y r h1
    split at hd
    · rename_i h2
      simp only [Option.some.injEq] at hd
      subst hd
      rw [h _ _ _ h1, ← strip_skipWs r, List.isEmpty_iff.1 h2]
      simp [strip]
    · cases hd

end Json
end Verif
