import Verif.Props.ResultsProps
import Verif.Props.RoundtripProps
import Verif.Proofs.Instructor
/-!
# The input side of the project's own property test

`mbqc_scheduling/tests/roundtrip.rs:46-90` makes a dependency graph out of random gates and teleportations. No random
operations lead to a graph that the test could not deal with, unless an operand is next to the largest number.
-/

namespace Verif
namespace Instructor

open Spec Results Example
open Widget (Pauli)

/-- What the test hands to `get_order`: a stack of Pauli operators for every qubit, and the qubits in the order of their
measurements, with the property that a correction on a measured qubit comes from an earlier measurement. One qubit
at least is not measured. -/
structure Front (n : Nat) (storage : AMap (List Pauli)) (measured : List Nat) : Prop where
  keys : (AMap.keys storage).Perm (List.range n)
  nodup : measured.Nodup
  lt : ∀ q ∈ measured, q < n
  short : measured.length < n
  rows : ∀ q st, storage.get q = some st → st.length ≤ measured.length
  before : ∀ (j c : Nat) (st : List Pauli) (k : Nat) (p : Pauli), measured[j]? = some c →
    storage.get c = some st → st[k]? = some p → p ≠ (false, false) → k < j

/-- The measurement of `d` causes a correction on `c`. -/
def Corrects (storage : AMap (List Pauli)) (measured : List Nat) (c d : Nat) : Prop :=
  ∃ (k : Nat) (st : List Pauli) (p : Pauli), storage.get c = some st ∧ st[k]? = some p ∧
    p ≠ (false, false) ∧ measured[k]? = some d

theorem Inv.front {n : Nat} {s : State} (h : Inv n s) : Front n (storeAll s) s.measured := by
  have hd := List.nodup_append'.1 h.nodup
  have hmem : ∀ q, q ∈ s.measured ∨ q ∈ s.memory ↔ q < n := fun q => by
    rw [← List.mem_append, h.perm.mem_iff, List.mem_range]
  have hg : ∀ q, (storeAll s).get q = (match s.tracker.get q with | some st => some st | none => s.storage.get q) :=
    storeAll_get s.tracker s.storage h.tnd
  have hgm : ∀ q ∈ s.measured, (storeAll s).get q = s.storage.get q := fun q hq => by
    rw [hg, h.tout q fun hm => hd.2.2 hq hm]
  have hget : ∀ q, (storeAll s).get q ≠ none ↔ q < n := by
    intro q
    rw [← hmem q]
    constructor
    · intro hne
      by_contra hn
      simp only [not_or] at hn
      rw [hg, h.tout q hn.2, h.sout q hn.1] at hne
      exact hne rfl
    · rintro (hq | hq)
      · rw [hgm q hq]; exact h.sin q hq
      · obtain ⟨st, e, _⟩ := h.tin q hq
        rw [hg, e]
        simp
  refine ⟨?_, hd.1, fun q hq => (hmem q).1 (Or.inl hq), ?_, ?_, ?_⟩
  · refine (List.perm_ext_iff_of_nodup (storeAll_nodup _ _ h.snd) List.nodup_range).2 fun q => ?_
    rw [List.mem_range, ← hget q]
    exact AMap.mem_keys_iff
  · have := h.perm.length_eq
    simp only [List.length_append, List.length_range] at this
    have := List.length_pos_iff.2 h.ne
    omega
  · intro q st hq
    by_cases hm : q ∈ s.measured
    · obtain ⟨j, hj⟩ := List.mem_iff_getElem?.1 hm
      rw [hgm q hm] at hq
      have := (h.before j q st hj hq).1
      have := (List.getElem?_eq_some_iff.1 hj).1
      omega
    · have hlt := (hget q).1 (by rw [hq]; simp)
      rcases (hmem q).2 hlt with h' | h'
      · exact absurd h' hm
      · obtain ⟨st', e, hl⟩ := h.tin q h'
        rw [hg, e] at hq
        simp only [Option.some.injEq] at hq
        subst hq
        omega
  · intro j c st k p hj hc hk hp
    rw [hgm c (List.mem_of_getElem? hj)] at hc
    exact (h.before j c st hj hc).2 k p hk hp

/-- **C74**: random operations lead to frames and measurements that fit together: no `unwrap` fails, every qubit has a stack,
every measured qubit is there once, and corrections only come from earlier measurements. Both build profiles give the
same. -/
theorem C74_frames {n : Nat} (hn : 0 < n) {ops : List Operation} (h : ∀ op ∈ ops, op.Fits) :
    ∃ storage measured, (∀ prof, frames prof ops n = .ok (storage, measured)) ∧ Front n storage measured := by
  obtain ⟨l, e1, f1⟩ := adaptAll_spec ops h
  obtain ⟨s, e2, f2⟩ := foldlM_spec l _ (inv_init hn) f1
  exact ⟨_, _, fun prof => by simp [frames, e1 prof, e2 prof, bind, Except.bind, pure, Except.pure], f2.front⟩

/-- Whether there is an operator at a position of the stack of a qubit. -/
def row (n : Nat) (storage : AMap (List Pauli)) (c : Nat) : List Bool :=
  (List.range n).map fun k => match storage.get c with
    | some st => decide (∃ p, st[k]? = some p ∧ p ≠ (false, false))
    | none => false

theorem row_get {n : Nat} {storage : AMap (List Pauli)} {c k : Nat} : (row n storage c)[k]? = some true ↔
    k < n ∧ ∃ st p, storage.get c = some st ∧ st[k]? = some p ∧ p ≠ (false, false) := by
  by_cases hk : k < n
  · simp only [row, List.getElem?_map, List.getElem?_range hk, Option.map_some, Option.some.injEq]
    cases hst : storage.get c with
    | none => simp
    | some st => simp [hk]
  · simp [row, hk]

/-- The documented behaviour of `get_order` is possible for these frames. -/
theorem C74_order_exists {n : Nat} {storage : AMap (List Pauli)} {measured : List Nat} (h : Front n storage measured) :
    ∃ G, Induced (Corrects storage measured) (List.range n) G := by
  set rest := (List.range n).filter fun q => decide (q ∉ measured) with hrest
  have hlen : ∀ c st k p, storage.get c = some st → st[k]? = some p → k < measured.length := fun c st k p hc hk =>
    Nat.lt_of_lt_of_le (List.getElem?_eq_some_iff.1 hk).1 (h.rows c st hc)
  have hperm : (measured ++ rest).Perm (List.range n) := by
    refine (List.perm_ext_iff_of_nodup ?_ List.nodup_range).2 fun q => ?_
    · refine List.nodup_append'.2 ⟨h.nodup, List.nodup_range.filter _, fun q hq hr => ?_⟩
      have := (List.mem_filter.1 hr).2
      simp only [decide_eq_true_eq] at this
      exact this hq
    · simp only [hrest, List.mem_append, List.mem_filter, List.mem_range, decide_eq_true_eq]
      constructor
      · rintro (hq | hq)
        · exact h.lt q hq
        · exact hq.1
      · intro hq
        by_cases hm : q ∈ measured
        · exact Or.inl hm
        · exact Or.inr ⟨hq, hm⟩
  have hfr : ∀ c z, ((List.range n).map (row n storage))[c]? = some z ↔ c < n ∧ z = row n storage c := by
    intro c z
    by_cases hc : c < n
    · simp [hc, eq_comm]
    · simp [hc]
  have hc : Causal n ((List.range n).map (row n storage)) (measured ++ rest) := by
    refine ⟨hperm, by simp, ?_, ?_⟩
    · intro z hz
      obtain ⟨c, _, rfl⟩ := List.mem_map.1 hz
      simp [row]
    · intro j k z c hj hz hk
      obtain ⟨_, rfl⟩ := (hfr c z).1 hz
      obtain ⟨_, st, p, e1, e2, e3⟩ := row_get.1 hk
      have hkm := hlen c st k p e1 e2
      by_cases hjm : j < measured.length
      · rw [List.getElem?_append_left hjm] at hj
        exact h.before j c st k p hj e1 e2 e3
      · omega
  have hI := C46_induced_exists hc
  have hD : DependsOn ((List.range n).map (row n storage)) (measured ++ rest) = Corrects storage measured := by
    funext c d
    apply propext
    constructor
    · rintro ⟨k, z, h1, h2, h3⟩
      obtain ⟨_, rfl⟩ := (hfr c z).1 h1
      obtain ⟨_, st, p, e1, e2, e3⟩ := row_get.1 h2
      rw [List.getElem?_append_left (hlen c st k p e1 e2)] at h3
      exact ⟨k, st, p, e1, e2, e3, h3⟩
    · rintro ⟨k, st, p, e1, e2, e3, h3⟩
      have hkm := hlen c st k p e1 e2
      have hcn : c < n := by
        have : c ∈ AMap.keys storage := AMap.mem_keys_iff.2 (by rw [e1]; simp)
        simpa using h.keys.mem_iff.1 this
      exact ⟨k, _, (hfr c _).2 ⟨hcn, rfl⟩, row_get.2 ⟨by have := h.short; omega, st, p, e1, e2, e3⟩, by
        rw [List.getElem?_append_left hkm]; exact h3⟩
  rw [hD] at hI
  exact ⟨_, hI⟩

/-- **C74**: the whole test passes, for all operations, edges and numbers of nodes, for every `get_order` that does what
its documentation says. -/
theorem C74_test {n : Nat} (hn : 0 < n) (hs : n < 2 ^ 64 - 1)
    {induced : AMap (List Pauli) → List Nat → List (List (Nat × List Nat))}
    (hi : ∀ storage measured, Front n storage measured →
      Induced (Corrects storage measured) (List.range n) (induced storage measured))
    {ops : List Operation} (h : ∀ op ∈ ops, op.Fits) {edges : List (Nat × Nat)} (hr : ∀ e ∈ edges, e.1 < n ∧ e.2 < n) :
    ∃ N, ∀ fuel, N ≤ fuel → ∀ prof, test prof fuel induced ops edges n = .ok (some ()) := by
  obtain ⟨storage, measured, e, hf⟩ := C74_frames hn h
  have hw : (⟨List.replicate n [], induced storage measured⟩ : Problem).WF :=
    (hi storage measured hf).wf (by simp) (by
      intro l hl v hv
      rw [List.eq_of_mem_replicate hl] at hv
      simp at hv) hs
  obtain ⟨N, hN⟩ := C73_passes hr hw
  refine ⟨N, fun fuel hfuel prof => ?_⟩
  cases hm : measured with
  | nil => simp [test, e prof, hm, bind, Except.bind, pure, Except.pure]
  | cons q qs =>
    simp only [test, e prof, bind, Except.bind, hm, List.isEmpty_cons, Bool.false_eq_true, ↓reduceIte]
    rw [← hm]
    exact hN fuel hfuel prof

/-- With one qubit nothing is ever measured, and the test is over before it begins. -/
theorem C74_one_qubit {ops : List Operation} (h : ∀ op ∈ ops, op.Fits) (prof : Profile) (fuel : Nat)
    (induced : AMap (List Pauli) → List Nat → List (List (Nat × List Nat))) (edges : List (Nat × Nat)) :
    test prof fuel induced ops edges 1 = .ok (some ()) := by
  obtain ⟨storage, measured, e, hf⟩ := C74_frames (n := 1) (by omega) h
  have : measured = [] := by
    have := hf.short
    cases measured with
    | nil => rfl
    | cons _ _ => simp at this
  simp [test, e prof, this, bind, Except.bind, pure, Except.pure]

/-- FALSE: that every operand is fine. The strategies of the test draw any `usize`; a debug build panics in `a + 73`. -/
theorem C74_overflow_refuted : ¬ ∀ (ops : List Operation) (n : Nat), 0 < n → ∃ r, frames .debug ops n = .ok r := by
  intro h
  obtain ⟨r, hr⟩ := h [.rz (2 ^ 64 - 4)] 2 (by omega)
  have : frames .debug [.rz (2 ^ 64 - 4)] 2 = .error .addOverflow := by decide +kernel
  rw [this] at hr
  cases hr

/-- FALSE: that the two operands of a teleportation are always different. In a release build `bit_b + 1` wraps around to
zero, the qubit is teleported to itself, its own measurement corrects it, and there is no ordering. -/
theorem C74_wrap_refuted : ∃ storage measured,
    frames .release [.teleported (true, false) 0 (2 ^ 64 - 1)] 3 = .ok (storage, measured) ∧
    Corrects storage measured 0 0 ∧ ¬ ∃ G, Induced (Corrects storage measured) (List.range 3) G := by
  refine ⟨[(2, [(false, false)]), (1, [(false, false)]), (0, [(true, false)])], [0], by decide +kernel, ?_⟩
  have hc : Corrects [(2, [(false, false)]), (1, [(false, false)]), (0, [(true, false)])] [0] 0 0 :=
    ⟨0, [(true, false)], (true, false), rfl, rfl, by decide, rfl⟩
  refine ⟨hc, ?_⟩
  rintro ⟨G, hG⟩
  have h0 : (0 : Nat) ∈ G.flatten.map (·.1) := hG.once.mem_iff.2 (by decide)
  obtain ⟨e, he, he0⟩ := List.mem_map.1 h0
  obtain ⟨l, hl, hel⟩ := List.mem_flatten.1 he
  obtain ⟨i, hi⟩ := List.mem_iff_getElem?.1 hl
  obtain ⟨j, l', hj, hl', h0'⟩ := (hG.layer i l hi e hel).1 0 (by rw [he0]; exact hc)
  obtain ⟨e', he', he0'⟩ := List.mem_map.1 h0'
  obtain ⟨j2, l2, hj2, hl2, h02⟩ := (hG.layer j l' hl' e' he').1 0 (by rw [he0']; exact hc)
  -- two layers that contain 0
  have hnd : (G.flatten.map (·.1)).Nodup := hG.once.nodup_iff.2 List.nodup_range
  have : (G.map (·.map (·.1))).flatten.Nodup := by rwa [← List.map_flatten]
  have hpw := (List.nodup_flatten.1 this).2
  have := List.pairwise_iff_getElem.1 hpw j i (by simpa using (List.getElem?_eq_some_iff.1 hl').1)
    (by simpa using (List.getElem?_eq_some_iff.1 hi).1) hj
  simp only [List.getElem_map, (List.getElem?_eq_some_iff.1 hl').2, (List.getElem?_eq_some_iff.1 hi).2] at this
  exact this h0' (List.mem_map.2 ⟨e, hel, he0⟩)

/-- Three qubits, two teleportations with gates between them. -/
def sampleOps : List Operation :=
  [.one .h 0, .teleported (true, false) 0 1, .two .cz 0 1, .one .s 1, .rz 5, .measure 7, .teleported (false, true) 1 2]

example : ∀ op ∈ sampleOps, op.Fits := by
  intro op h
  simp only [sampleOps, List.mem_cons, List.not_mem_nil, or_false] at h
  rcases h with rfl | rfl | rfl | rfl | rfl | rfl | rfl <;> simp [Operation.Fits, usizeMax]

example : frames .debug sampleOps 3 =
    .ok ([(2, [(false, false), (true, true)]), (1, [(true, false), (false, false)]), (0, [(false, false)])], [0, 1]) := by
  decide +kernel

/-- There is a `get_order` with the documented behaviour. -/
example (n : Nat) : ∃ induced : AMap (List Pauli) → List Nat → List (List (Nat × List Nat)),
    ∀ storage measured, Front n storage measured →
      Induced (Corrects storage measured) (List.range n) (induced storage measured) := by
  classical
  refine ⟨fun storage measured => if h : Front n storage measured then (C74_order_exists h).choose else [], ?_⟩
  intro storage measured h
  simp only [h, ↓reduceDIte]
  exact (C74_order_exists h).choose_spec

end Instructor
end Verif
