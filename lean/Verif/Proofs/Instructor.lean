import Verif.Model.Instructor
import Verif.Proofs.AMap
import Verif.Proofs.Results
import Verif.Proofs.Space
/-!
# The frames that the property test makes out of random operations
-/

namespace Verif
namespace Instructor

open Widget (Pauli)

/-- What holds between two operations. -/
structure Inv (n : Nat) (s : State) : Prop where
  ne : s.memory ≠ []
  perm : (s.measured ++ s.memory).Perm (List.range n)
  frames : s.frames = s.measured.length
  tnd : (AMap.keys s.tracker).Nodup
  tin : ∀ q ∈ s.memory, ∃ st, s.tracker.get q = some st ∧ st.length = s.measured.length
  tout : ∀ q, q ∉ s.memory → s.tracker.get q = none
  snd : (AMap.keys s.storage).Nodup
  sin : ∀ q ∈ s.measured, s.storage.get q ≠ none
  sout : ∀ q, q ∉ s.measured → s.storage.get q = none
  before : ∀ j c st, s.measured[j]? = some c → s.storage.get c = some st →
    st.length = j + 1 ∧ ∀ k p, st[k]? = some p → p ≠ (false, false) → k < j

theorem get_map_stack (m : AMap (List Pauli)) (f : Nat → List Pauli → List Pauli) (k : Nat) :
    AMap.get (m.map fun e => (e.1, f e.1 e.2)) k = (m.get k).map (f k) := by
  induction m with
  | nil => rfl
  | cons e m ih =>
    obtain ⟨a, v⟩ := e
    simp only [List.map_cons, AMap.get]
    by_cases h : a = k
    · simp [h]
    · simp [h, ih]

theorem inv_init {n : Nat} (hn : 0 < n) : Inv n (State.init n) := by
  have hk : AMap.keys ((List.range n).map fun q => (q, ([] : List Pauli))) = List.range n := by
    simp [AMap.keys, Function.comp_def]
  refine ⟨?_, by simp [State.init], rfl, ?_, ?_, ?_, by simp [State.init, AMap.keys], by simp [State.init], by simp [State.init],
    by simp [State.init]⟩
  · intro h
    have : (List.range n).length = 0 := by rw [show List.range n = [] from h]; rfl
    simp at this
    omega
  · simp only [State.init]
    rw [hk]
    exact List.nodup_range
  · intro q hq
    refine ⟨[], ?_, rfl⟩
    apply AMap.get_of_mem
    · simp only [State.init]; rw [hk]; exact List.nodup_range
    · simpa [State.init] using hq
  · intro q hq
    by_contra h
    have := AMap.mem_keys_iff.2 h
    simp only [State.init] at this
    rw [hk] at this
    exact hq this

theorem remLen_ok {s : State} (h : s.memory ≠ []) (bit : Nat) :
    remLen s bit = .ok (bit % s.memory.length) ∧ bit % s.memory.length < s.memory.length := by
  have : 0 < s.memory.length := List.length_pos_iff.2 h
  exact ⟨by simp [remLen, h, pure, Except.pure], Nat.mod_lt _ this⟩

theorem succ_mod_ne {x l : Nat} (hl : 2 ≤ l) : (x + 1) % l ≠ x % l := by
  intro h
  have := Nat.sub_mod_eq_zero_of_mod_eq h
  rw [show x + 1 - x = 1 by omega, Nat.mod_eq_of_lt (by omega)] at this
  omega

theorem doubleMemIdx_spec {s : State} (h : s.memory ≠ []) (hnd : s.memory.Nodup) (prof : Profile) {a b : Nat}
    (hb : b + 1 ≤ usizeMax) :
    (s.memory.length = 1 ∧ doubleMemIdx prof s a b = .ok none) ∨
    (2 ≤ s.memory.length ∧ ∃ p q, doubleMemIdx prof s a b = .ok (some (p, q)) ∧ p ≠ q ∧
      s.memory[a % s.memory.length]? = some p ∧ q ∈ s.memory) := by
  by_cases h1 : s.memory.length = 1
  · exact Or.inl ⟨h1, by simp [doubleMemIdx, h1, pure, Except.pure]⟩
  · have hlen : 2 ≤ s.memory.length := by
      have := List.length_pos_iff.2 h
      omega
    right
    obtain ⟨e1, l1⟩ := remLen_ok h a
    obtain ⟨e2, l2⟩ := remLen_ok h b
    obtain ⟨e3, l3⟩ := remLen_ok h (b + 1)
    have hne : ∀ {i j : Nat} (hi : i < s.memory.length) (hj : j < s.memory.length), i ≠ j → s.memory[i] ≠ s.memory[j] :=
      fun hi hj hij heq => hij ((List.Nodup.getElem_inj_iff hnd).1 heq)
    have g : ∀ {i : Nat} (hi : i < s.memory.length), idx s.memory i = .ok s.memory[i] := fun hi =>
      idx_of_getElem? (List.getElem?_eq_getElem hi)
    refine ⟨hlen, ?_⟩
    by_cases hab : a % s.memory.length = b % s.memory.length
    · refine ⟨_, _, ?_, hne l1 l3 (by rw [hab]; exact (succ_mod_ne hlen).symm), List.getElem?_eq_getElem l1,
        List.getElem_mem l3⟩
      simp [doubleMemIdx, h1, e1, e2, hab, usizeAdd, hb, e3, g l3, g l2, bind, Except.bind, pure, Except.pure]
    · refine ⟨_, _, ?_, hne l1 l2 hab, List.getElem?_eq_getElem l1, List.getElem_mem l2⟩
      simp [doubleMemIdx, h1, e1, e2, hab, g l1, g l2, bind, Except.bind, pure, Except.pure]

/-- The operands are not close to the largest number. -/
def Kept.Fits : Kept → Prop
  | .one _ _ => True
  | .two _ _ b => b + 1 ≤ usizeMax
  | .teleported _ _ b => b + 1 ≤ usizeMax

theorem Inv.nodup {n : Nat} {s : State} (h : Inv n s) : (s.measured ++ s.memory).Nodup :=
  h.perm.nodup_iff.2 List.nodup_range

theorem Inv.retrack {n : Nat} {s : State} (h : Inv n s) {t : AMap (List Pauli)} (h1 : (AMap.keys t).Nodup)
    (h2 : ∀ q st, s.tracker.get q = some st → ∃ st', t.get q = some st' ∧ st'.length = st.length)
    (h3 : ∀ q, s.tracker.get q = none → t.get q = none) : Inv n { s with tracker := t } :=
  ⟨h.ne, h.perm, h.frames, h1, fun q hq => by
    obtain ⟨st, a, b⟩ := h.tin q hq
    obtain ⟨st', c, d⟩ := h2 q st a
    exact ⟨st', c, by rw [d]; exact b⟩, fun q hq => h3 q (h.tout q hq), h.snd, h.sin, h.sout, h.before⟩

theorem step_spec {n : Nat} {s : State} (h : Inv n s) {op : Kept} (hop : op.Fits) :
    ∃ s', (∀ prof, step prof s op = .ok s') ∧ Inv n s' := by
  have hmem : s.memory.isEmpty = false := by
    cases hm : s.memory with
    | nil => exact absurd hm h.ne
    | cons _ _ => rfl
  have hnd := (List.nodup_append'.1 h.nodup).2.1
  cases op with
  | one g b =>
    obtain ⟨e1, l1⟩ := remLen_ok h.ne b
    obtain ⟨st, t1, t2⟩ := h.tin _ (List.getElem_mem l1)
    refine ⟨_, fun prof => ?_, h.retrack (t := s.tracker.insert s.memory[b % s.memory.length] (st.map g.conj))
      (AMap.nodup_insert h.tnd _ _) ?_ ?_⟩
    · simp [step, hmem, memIdx, e1, idx_of_getElem? (List.getElem?_eq_getElem l1), gate1, t1, bind, Except.bind, pure,
        Except.pure]
    · intro q st' hq
      rw [AMap.get_insert]
      split
      · rename_i hqq
        subst hqq
        rw [t1] at hq
        simp only [Option.some.injEq] at hq
        subst hq
        exact ⟨_, rfl, by simp⟩
      · exact ⟨st', hq, rfl⟩
    · intro q hq
      rw [AMap.get_insert]
      split
      · rename_i hqq
        subst hqq
        rw [t1] at hq
        simp at hq
      · exact hq
  | two g a b =>
    by_cases h1 : s.memory.length = 1
    · refine ⟨s, fun prof => ?_, h⟩
      simp [step, hmem, doubleMemIdx, h1, bind, Except.bind, pure, Except.pure]
    · obtain ⟨p, q, e1, hpq, hp, hq⟩ : ∃ p q, (∀ prof, doubleMemIdx prof s a b = .ok (some (p, q))) ∧ p ≠ q ∧
          p ∈ s.memory ∧ q ∈ s.memory := by
        rcases doubleMemIdx_spec h.ne hnd .debug (a := a) hop with ⟨x, _⟩ | ⟨_, p, q, x1, x2, x3, x4⟩
        · exact absurd x h1
        · refine ⟨p, q, fun prof => ?_, x2, List.mem_of_getElem? x3, x4⟩
          cases prof with
          | debug => exact x1
          | release =>
            rw [← x1]
            simp only [doubleMemIdx, usizeAdd, show b + 1 ≤ usizeMax from hop, ↓reduceIte]
      obtain ⟨st, t1, t2⟩ := h.tin p hp
      obtain ⟨st', u1, u2⟩ := h.tin q hq
      refine ⟨_, fun prof => ?_, h.retrack (t := (s.tracker.insert p (List.zipWith (fun a b => (g.conj a b).1) st st')).insert q
        (List.zipWith (fun a b => (g.conj a b).2) st st')) (AMap.nodup_insert (AMap.nodup_insert h.tnd _ _) _ _) ?_ ?_⟩
      · simp [step, hmem, e1 prof, gate2, t1, u1, hpq, bind, Except.bind, pure, Except.pure]
      · intro r st'' hr
        rw [AMap.get_insert, AMap.get_insert]
        split
        · rename_i hrq
          subst hrq
          rw [u1] at hr
          simp only [Option.some.injEq] at hr
          subst hr
          exact ⟨_, rfl, by simp [t2, u2]⟩
        · split
          · rename_i hrq
            subst hrq
            rw [t1] at hr
            simp only [Option.some.injEq] at hr
            subst hr
            exact ⟨_, rfl, by simp [t2, u2]⟩
          · exact ⟨_, hr, rfl⟩
      · intro r hr
        rw [AMap.get_insert, AMap.get_insert]
        split
        · rename_i hrq
          subst hrq
          rw [u1] at hr
          simp at hr
        · split
          · rename_i hrq
            subst hrq
            rw [t1] at hr
            simp at hr
          · exact hr
  | teleported pauli a b =>
    by_cases h1 : s.memory.length = 1
    · refine ⟨s, fun prof => ?_, h⟩
      simp [step, hmem, doubleMemIdx, h1, bind, Except.bind, pure, Except.pure]
    · obtain ⟨p, q, e1, hpq, hp, hq⟩ : ∃ p q, (∀ prof, doubleMemIdx prof s a b = .ok (some (p, q))) ∧ p ≠ q ∧
          s.memory[a % s.memory.length]? = some p ∧ q ∈ s.memory := by
        rcases doubleMemIdx_spec h.ne hnd .debug (a := a) hop with ⟨x, _⟩ | ⟨_, p, q, x1, x2, x3, x4⟩
        · exact absurd x h1
        · refine ⟨p, q, fun prof => ?_, x2, x3, x4⟩
          cases prof with
          | debug => exact x1
          | release =>
            rw [← x1]
            simp only [doubleMemIdx, usizeAdd, show b + 1 ≤ usizeMax from hop, ↓reduceIte]
      have hpm := List.mem_of_getElem? hp
      have hpn : p ∉ s.measured := fun hm => (List.nodup_append'.1 h.nodup).2.2 hm hpm
      obtain ⟨st, t1, t2⟩ := h.tin p hpm
      have hk : AMap.keys (track q pauli s.tracker) = AMap.keys s.tracker := by
        simp [AMap.keys, track, Function.comp_def]
      have hg : ∀ k, (track q pauli s.tracker).get k =
          (s.tracker.get k).map (· ++ [if k = q then pauli else (false, false)]) := fun k =>
        get_map_stack s.tracker (fun k st => st ++ [if k = q then pauli else (false, false)]) k
      have hgp : (track q pauli s.tracker).get p = some (st ++ [(false, false)]) := by
        have := hg p
        rw [t1] at this
        simpa [hpq] using this
      have hperm := Results.swapRemove_perm' hp
      have hndm := hperm.nodup_iff.2 hnd
      have hlen := hperm.length_eq
      obtain ⟨r1, r2⟩ := remLen_ok h.ne a
      refine ⟨⟨swapRemove s.memory (a % s.memory.length), s.used, (track q pauli s.tracker).erase p,
        s.storage.insert p (st ++ [(false, false)]), s.frames + 1, s.measured ++ [p]⟩, fun prof => ?_, ?_⟩
      · have r3 : ∀ {t : State}, t.memory = s.memory → ∀ i, remLen t i = .ok (i % s.memory.length) := by
          intro t ht i
          have := (remLen_ok (s := t) (by rw [ht]; exact h.ne) i).1
          rw [this, ht]
        simp [step, hmem, e1 prof, teleport, measureAndStore, hgp, h.sout p hpn, bind, Except.bind, pure, Except.pure, r3]
      · refine ⟨?_, ?_, by simp [h.frames], ?_, ?_, ?_, AMap.nodup_insert h.snd _ _, ?_, ?_, ?_⟩
        · intro h0
          simp only at h0
          rw [h0] at hlen
          simp at hlen
          omega
        · simp only [List.append_assoc, List.singleton_append]
          exact (hperm.append_left _).trans h.perm
        · exact AMap.nodup_erase (by rw [hk]; exact h.tnd) p
        · intro r hr
          have hrm : r ∈ s.memory := hperm.mem_iff.1 (List.mem_cons_of_mem _ hr)
          have hrp : r ≠ p := by
            rintro rfl
            exact (List.nodup_cons.1 hndm).1 hr
          obtain ⟨sr, v1, v2⟩ := h.tin r hrm
          refine ⟨sr ++ [if r = q then pauli else (false, false)], ?_, by simp [v2]⟩
          rw [AMap.get_erase, if_neg hrp]
          have := hg r
          rw [v1] at this
          simpa using this
        · intro r hr
          rw [AMap.get_erase]
          split
          · rfl
          · rename_i hrp
            have hrm : r ∉ s.memory := by
              intro hm
              rcases List.mem_cons.1 (hperm.mem_iff.2 hm) with h' | h'
              · exact hrp h'
              · exact hr h'
            have := hg r
            rw [h.tout r hrm] at this
            simpa using this
        · intro r hr
          rw [AMap.get_insert]
          split
          · simp
          · rename_i hrp
            rcases List.mem_append.1 hr with hr | hr
            · exact h.sin r hr
            · exact absurd (List.mem_singleton.1 hr) hrp
        · intro r hr
          simp only [List.mem_append, List.mem_singleton, not_or] at hr
          rw [AMap.get_insert, if_neg hr.2]
          exact h.sout r hr.1
        · intro j c sc hj hc
          simp only at hj hc
          rw [AMap.get_insert] at hc
          rcases Nat.lt_or_ge j s.measured.length with hlt | hge
          · rw [List.getElem?_append_left hlt] at hj
            have hcp : c ≠ p := by
              rintro rfl
              exact hpn (List.mem_of_getElem? hj)
            rw [if_neg hcp] at hc
            exact h.before j c sc hj hc
          · rw [List.getElem?_append_right hge] at hj
            have hj0 : j = s.measured.length := by
              by_contra hne
              rw [List.getElem?_eq_none (by simp; omega)] at hj
              simp at hj
            subst hj0
            simp only [Nat.sub_self, List.getElem?_cons_zero, Option.some.injEq] at hj
            subst hj
            rw [if_pos rfl] at hc
            simp only [Option.some.injEq] at hc
            subst hc
            refine ⟨by simp [t2], fun k p' hk' hne => ?_⟩
            rcases Nat.lt_or_ge k s.measured.length with hlt | hge'
            · exact hlt
            · rw [List.getElem?_append_right (by omega)] at hk'
              cases hkk : k - st.length with
              | zero =>
                rw [hkk] at hk'
                simp only [List.getElem?_cons_zero, Option.some.injEq] at hk'
                exact absurd hk'.symm hne
              | succ m =>
                rw [hkk] at hk'
                simp at hk'

theorem foldlM_spec {n : Nat} : ∀ (ops : List Kept) (s : State), Inv n s → (∀ op ∈ ops, op.Fits) →
    ∃ s', (∀ prof, ops.foldlM (step prof) s = .ok s') ∧ Inv n s' := by
  intro ops
  induction ops with
  | nil => intro s h _; exact ⟨s, fun _ => rfl, h⟩
  | cons op ops ih =>
    intro s h hf
    obtain ⟨s1, e1, h1⟩ := step_spec h (hf op (by simp))
    obtain ⟨s2, e2, h2⟩ := ih s1 h1 fun o ho => hf o (by simp [ho])
    exact ⟨s2, fun prof => by simp [List.foldlM_cons, e1 prof, e2 prof, bind, Except.bind], h2⟩

/-- The operands of an operation are at least 74 below the largest number. -/
def Operation.Fits : Operation → Prop
  | .one _ b | .rz b | .measure b | .newQubit b => b + 74 ≤ usizeMax
  | .two _ a b | .teleported _ a b => a + 74 ≤ usizeMax ∧ b + 74 ≤ usizeMax

theorem adapt_spec {op : Operation} (h : op.Fits) : ∃ o, (∀ prof, adapt prof op = .ok o) ∧ ∀ k ∈ o, k.Fits := by
  cases op with
  | one g b => exact ⟨_, fun _ => rfl, by intro k hk; cases hk; trivial⟩
  | two g a b => exact ⟨_, fun _ => rfl, by intro k hk; cases hk; have := h.2; simp only [Kept.Fits]; omega⟩
  | teleported p a b => exact ⟨_, fun _ => rfl, by intro k hk; cases hk; have := h.2; simp only [Kept.Fits]; omega⟩
  | measure b => exact ⟨_, fun _ => rfl, by intro k hk; cases hk⟩
  | newQubit b => exact ⟨_, fun _ => rfl, by intro k hk; cases hk⟩
  | rz a =>
    have ha : a + 74 ≤ usizeMax := h
    have hadd : ∀ prof, usizeAdd prof a 73 = .ok (a + 73) := by
      intro prof
      simp [usizeAdd, show a + 73 ≤ usizeMax by omega]
    have hm : a % 4 = 0 ∨ a % 4 = 1 ∨ a % 4 = 2 ∨ a % 4 = 3 := by omega
    rcases hm with hm | hm | hm | hm
    · exact ⟨some (.teleported (false, true) a (a + 73)), fun prof => by simp [adapt, hm, hadd, bind, Except.bind, pure, Except.pure],
        by intro k hk; cases hk; simp only [Kept.Fits]; omega⟩
    · exact ⟨some (.teleported (true, true) a (a + 73)), fun prof => by simp [adapt, hm, hadd, bind, Except.bind, pure, Except.pure],
        by intro k hk; cases hk; simp only [Kept.Fits]; omega⟩
    · exact ⟨some (.teleported (true, false) a (a + 73)), fun prof => by simp [adapt, hm, hadd, bind, Except.bind, pure, Except.pure],
        by intro k hk; cases hk; simp only [Kept.Fits]; omega⟩
    · exact ⟨none, fun prof => by simp [adapt, hm, pure, Except.pure], by intro k hk; cases hk⟩

theorem adaptAll_spec : ∀ (ops : List Operation), (∀ op ∈ ops, op.Fits) →
    ∃ l, (∀ prof, adaptAll prof ops = .ok l) ∧ ∀ k ∈ l, k.Fits := by
  intro ops
  induction ops with
  | nil => intro _; exact ⟨[], fun _ => rfl, by simp⟩
  | cons op ops ih =>
    intro h
    obtain ⟨o, e1, f1⟩ := adapt_spec (h op (by simp))
    obtain ⟨l, e2, f2⟩ := ih fun x hx => h x (by simp [hx])
    refine ⟨o.toList ++ l, fun prof => by simp [adaptAll, e1 prof, e2 prof, bind, Except.bind, pure, Except.pure], ?_⟩
    intro k hk
    rcases List.mem_append.1 hk with hk | hk
    · exact f1 k (by simpa using hk)
    · exact f2 k hk

theorem storeAll_get : ∀ (t m : AMap (List Pauli)), (AMap.keys t).Nodup → ∀ q,
    (t.foldl (fun m e => m.insert e.1 e.2) m).get q = (match t.get q with | some st => some st | none => m.get q) := by
  intro t
  induction t with
  | nil => intro m _ q; rfl
  | cons e t ih =>
    intro m h q
    obtain ⟨a, v⟩ := e
    simp only [AMap.keys, List.map_cons, List.nodup_cons] at h
    rw [List.foldl_cons, ih _ h.2 q, AMap.get_insert]
    simp only [AMap.get]
    by_cases hq : a = q
    · subst hq
      have : AMap.get t a = none := by
        by_contra hn
        exact h.1 (AMap.mem_keys_iff.2 hn)
      simp [this]
    · simp [hq, show ¬ q = a from fun e => hq e.symm]

theorem storeAll_nodup : ∀ (t m : AMap (List Pauli)), (AMap.keys m).Nodup →
    (AMap.keys (t.foldl (fun m e => m.insert e.1 e.2) m)).Nodup := by
  intro t
  induction t with
  | nil => intro m h; exact h
  | cons e t ih => intro m h; exact ih _ (AMap.nodup_insert h _ _)

end Instructor
end Verif
