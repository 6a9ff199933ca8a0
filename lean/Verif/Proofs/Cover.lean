import Verif.Proofs.Invariant
/-!
# Nothing is missed: the coverage invariant of the deterministic search
-/

namespace Verif

open Spec Search

/-- The table already knows something at least as good as `S`. -/
def Dom (P : Problem) (b : List Nat) (S : Schedule) : Prop := at0 b S.length ≤ P.peak S

/-- The table already knows something that is as good as `S` in memory and needs at most `δ` more steps. -/
def DomS (P : Problem) (δ : Nat) (b : List Nat) (S : Schedule) : Prop :=
  at0 b (min (S.length + δ) P.n) ≤ P.peak S

/-- `S` starts like `p` (up to the order in each step). -/
def Extends (p S : Schedule) : Prop := StepEq p (S.take p.length)

/-- `S` will still be met by the sweep below the state `s` at path `p`. -/
def PendAt (S p : Schedule) (s : Scheduler Partitioner) : Prop :=
  Extends p S ∧
    ((∃ s' l m, S[p.length]? = some s' ∧ (l, m) ∈ rem s ∧ m ≠ [] ∧ m.Perm s') ∨
      (s.time.measurable.set = [] ∧ p.length = S.length))

/-- All states on the stack (top first) with their paths. -/
def levels : Schedule → Scheduler Partitioner → List (Scheduler Partitioner) →
    List (Schedule × Scheduler Partitioner)
  | p, c, [] => [(p, c)]
  | p, c, t :: r => (p, c) :: levels p.dropLast t r

def Pending (S : Schedule) (p : Schedule) (c : Scheduler Partitioner)
    (st : List (Scheduler Partitioner)) : Prop :=
  ∃ lv ∈ levels p c st, PendAt S lv.1 lv.2

theorem pending_cons {S p : Schedule} {c t : Scheduler Partitioner}
    {r : List (Scheduler Partitioner)} :
    Pending S p c (t :: r) ↔ PendAt S p c ∨ Pending S p.dropLast t r := by
  simp [Pending, levels]

theorem pending_nil {S p : Schedule} {c : Scheduler Partitioner} :
    Pending S p c [] ↔ PendAt S p c := by
  simp [Pending, levels]

/-- The head of a pending list can be exchanged. -/
theorem Pending.replace {S p : Schedule} {c c' : Scheduler Partitioner}
    {st : List (Scheduler Partitioner)} (h : Pending S p c st) :
    PendAt S p c ∨ Pending S p c' st := by
  cases st with
  | nil => exact Or.inl (pending_nil.1 h)
  | cons t r =>
    rcases pending_cons.1 h with h | h
    · exact Or.inl h
    · exact Or.inr (pending_cons.2 (Or.inr h))

theorem Pending.head {S p : Schedule} {c : Scheduler Partitioner}
    {st : List (Scheduler Partitioner)} (h : PendAt S p c) : Pending S p c st := by
  cases st with
  | nil => exact pending_nil.2 h
  | cons t r => exact pending_cons.2 (Or.inl h)

theorem Extends.le {p S : Schedule} (h : Extends p S) : p.length ≤ S.length := by
  have := h.length_eq
  simp only [List.length_take] at this
  omega

theorem Extends.mem {p S : Schedule} (h : Extends p S) (v : Nat) :
    v ∈ p.flatten ↔ v ∈ (S.take p.length).flatten := h.mem_flatten v

theorem extends_nil (S : Schedule) : Extends [] S := by simp [Extends]

theorem extends_snoc {p S : Schedule} {m s' : List Nat} (h : Extends p S)
    (hs : S[p.length]? = some s') (hm : m.Perm s') : Extends (p ++ [m]) S := by
  unfold Extends
  simp only [List.length_append, List.length_singleton]
  rw [take_succ_of_getElem? hs]
  exact h.snoc hm

theorem Extends.peak_le {P : Problem} {p S : Schedule} (h : Extends p S) : P.peak p ≤ P.peak S := by
  rw [h.peak P]
  conv_rhs => rw [← List.take_append_drop p.length S]
  exact peak_le_append P _ _

/-- A schedule that starts with a complete prefix ends there. -/
theorem Extends.complete {P : Problem} {p S : Schedule} (h : Extends p S)
    (hS : Prefix P S) (hp : Maximal P p) : p.length = S.length := by
  have hle := h.le
  apply Classical.byContradiction
  intro hne
  have hlt : p.length < S.length := by omega
  have hs : S[p.length]? = some S[p.length] := by simp [hlt]
  have hpre := prefix_take hS (p.length + 1)
  rw [take_succ_of_getElem? hs] at hpre
  obtain ⟨_, hnn, _, hr⟩ := prefix_of_snoc hpre
  obtain ⟨b, hb⟩ := List.exists_mem_of_ne_nil _ hnn
  exact hp.none b ((ready_congr h.mem).2 (hr b hb))

/-- A fresh state covers every schedule that starts with its path and cannot be continued. -/
theorem fresh_pendAt_max {P : Problem} {p S : Schedule} {c : Scheduler Partitioner}
    (hc : StateFor P p c) (hf : Fresh c) (hS : Maximal P S) (he : Extends p S) : PendAt S p c := by
  refine ⟨he, ?_⟩
  by_cases hset : c.time.measurable.set = []
  · exact Or.inr ⟨hset, he.complete hS.pre ((leaf_maximal hc).1 hset)⟩
  · left
    have hle := he.le
    have hlt : p.length < S.length := by
      apply Classical.byContradiction
      intro hn
      have : p.length = S.length := by omega
      apply hset
      apply (leaf_maximal hc).2
      refine ⟨hc.pre, fun b hb => hS.none b ((ready_congr fun v => ?_).1 hb)⟩
      rw [he.mem v, this, List.take_length]
    have hs : S[p.length]? = some S[p.length] := by simp [hlt]
    have hpre := prefix_take hS.pre (p.length + 1)
    rw [take_succ_of_getElem? hs] at hpre
    obtain ⟨_, hnn, hnd, hr⟩ := prefix_of_snoc hpre
    generalize S[p.length] = s' at *
    have hset' : ∀ b ∈ s', b ∈ c.time.measurable.set := by
      intro b hb
      exact (hc.time.set_mem b).2 ((ready_congr he.mem).2 (hr b hb))
    have hperm : (c.time.measurable.set.filter (fun b => decide (b ∈ s'))).Perm s' := by
      refine (List.perm_ext_iff_of_nodup (hc.time.set_nodup.filter _) hnd).2 ?_
      intro b
      change b ∈ List.filter _ c.time.measurable.set ↔ _
      simp only [List.mem_filter, decide_eq_true_eq]
      exact ⟨fun h => h.2, fun h => ⟨hset' b h, h⟩⟩
    obtain ⟨l, hl⟩ := exists_items_of_sublist
      (List.filter_sublist (l := c.time.measurable.set) (p := fun b => decide (b ∈ s')))
    refine ⟨s', l, _, hs, by rw [hf.rem]; exact hl, ?_, hperm⟩
    intro h0
    rw [h0] at hperm
    exact hnn (List.Perm.eq_nil hperm.symm)

/-- A fresh state covers every valid schedule that starts with its path. -/
theorem fresh_pendAt {P : Problem} (hP : P.WF) {p S : Schedule} {c : Scheduler Partitioner}
    (hc : StateFor P p c) (hf : Fresh c) (hS : P.Valid S) (he : Extends p S) : PendAt S p c :=
  fresh_pendAt_max hc hf ((maximal_iff hP).2 hS) he

/-- The lower bound on the path length is right. -/
theorem minimumPathLength_le_of_extends {P : Problem} (hP : P.bits.Nodup) {p S : Schedule} {m : List Nat}
    {c : Scheduler Partitioner} (hc : StateFor P (p ++ [m]) c) (hS : P.Valid S)
    (he : Extends (p ++ [m]) S) : minimumPathLength c.time p ≤ S.length := by
  have hle := he.le
  simp only [List.length_append, List.length_singleton] at hle
  have key : ∀ b ∈ P.bits, b ∉ (p ++ [m]).flatten →
      ∃ (j : Nat) (s : List Nat), p.length + 1 ≤ j ∧ S[j]? = some s ∧ b ∈ s := by
    intro b hb hn
    obtain ⟨j, s, hj, hbs⟩ := mem_flatten_iff.1 (hS.perm.mem_iff.2 hb)
    refine ⟨j, s, ?_, hj, hbs⟩
    apply Classical.byContradiction
    intro hlt
    apply hn
    rw [he.mem b]
    simp only [List.length_append, List.length_singleton]
    refine mem_flatten_iff.2 ⟨j, s, ?_, hbs⟩
    rw [List.getElem?_take, if_pos (by omega)]
    exact hj
  unfold minimumPathLength
  split
  · exact hle
  · rename_i hleaf
    rw [atLeaf_isSome] at hleaf
    split
    · rename_i hun
      obtain ⟨b, hb, hu⟩ := (hasUnmeasureable_iff hc).1 hun
      have hnot : ¬ ∀ d, P.Needs b d → d ∈ (p ++ [m]).flatten := by
        intro hall
        have := (unmet_zero_iff hP).2 hall
        omega
      simp only [Classical.not_forall] at hnot
      obtain ⟨d, hd, hdn⟩ := hnot
      have hbn : b ∉ (p ++ [m]).flatten := fun hbM => hdn (hc.time.closed b hbM d hd)
      obtain ⟨j, s, hj, hs, hbs⟩ := key b hb hbn
      obtain ⟨i, s', hi, hs', hds⟩ := hS.deps j s hs b hbs d hd
      have hi' : p.length + 1 ≤ i := by
        apply Classical.byContradiction
        intro hlt
        apply hdn
        rw [he.mem d]
        simp only [List.length_append, List.length_singleton]
        refine mem_flatten_iff.2 ⟨i, s', ?_, hds⟩
        rw [List.getElem?_take, if_pos (by omega)]
        exact hs'
      have := (List.getElem?_eq_some_iff.1 hs).1
      omega
    · obtain ⟨r, hr⟩ := List.exists_mem_of_ne_nil _ hleaf
      have hr' := (hc.time.set_mem r).1 hr
      obtain ⟨j, s, hj, hs, _⟩ := key r hr'.bit hr'.fresh
      have := (List.getElem?_eq_some_iff.1 hs).1
      omega

/-- Every valid schedule below `p0` is dominated already or still ahead. -/
def Cov (P : Problem) (p0 : Schedule) (l : Loc) : Prop :=
  ∀ S, P.Valid S → Extends p0 S →
    Dom P l.best S ∨ Pending S l.path l.sweep.current l.sweep.stack

theorem NextNone.no_item {s s' : Scheduler Partitioner} (h : NextNone s s') {l m : List Nat}
    (hm : (l, m) ∈ Verif.rem s) : m = [] := by
  rcases h.rem with h | h
  · rw [h] at hm; simp at hm
  · rw [h] at hm
    simp only [List.mem_singleton, Prod.mk.injEq] at hm
    exact hm.2

/-- The lower bound on the path length is at most `δ` too large for `S`. -/
def MinLen (P : Problem) (δ : Nat) (S : Schedule) : Prop :=
  ∀ (p : Schedule) (m : List Nat) (c : Scheduler Partitioner), StateFor P (p ++ [m]) c →
    Extends (p ++ [m]) S → minimumPathLength c.time p ≤ S.length + δ

/-- One schedule stays covered, and when the loop ends it is dominated (unless there was nothing to
search below the start). -/
theorem IterStep.cov1_slack {P : Problem} (hP : Lax P) {p0 : Schedule} {b0 : List Nat}
    {l l' : Loc} {stop : Bool} (h : IterStep P True l l' stop) (hl : LInv P p0 b0 l)
    {S : Schedule} (hS : Maximal P S) {δ : Nat} (hδ : MinLen P δ S)
    (hc : DomS P δ l.best S ∨ Pending S l.path l.sweep.current l.sweep.stack) :
    (stop = false → DomS P δ l'.best S ∨ Pending S l'.path l'.sweep.current l'.sweep.stack) ∧
    (stop = true → DomS P δ l'.best S ∨ (Maximal P p0 ∧ Extends p0 S ∧ p0.length = S.length)) := by
  have hmono := (h.inv hl).2
  have hdom : ∀ S, DomS P δ l.best S → DomS P δ l'.best S := fun S hd =>
    Nat.le_trans (hmono _) hd
  have hSn : S.length ≤ P.n := by
    have := hS.pre.length_le
    have := nodup_length_le_n hP hS.pre.nodup hS.pre.sub
    omega
  have hstate := hl.ok.chain.state.1
  cases h with
  | stop hst hn hs hi =>
    refine ⟨by simp, fun _ => ?_⟩
    rcases hc with hd | hp
    · exact Or.inl hd
    · rw [hst, pending_nil] at hp
      rcases hp.2 with ⟨s1, k, m, _, hm, hne, _⟩ | ⟨hset, hlen⟩
      · exact (hne (hn.no_item hm)).elim
      · have h1 := hl.ok.chain
        rw [hst] at h1
        have h2 := h1.base_path
        exact Or.inr ⟨h2 ▸ (leaf_maximal hstate).1 hset, h2 ▸ hp.1, h2 ▸ hlen⟩
  | backLeaf hst hn hleaf hlen =>
    refine ⟨fun _ => ?_, by simp⟩
    rcases hc with hd | hp
    · exact Or.inl (hdom S hd)
    · rw [hst, pending_cons] at hp
      rcases hp with ⟨hE', hp⟩ | hp
      · left
        rcases hp with ⟨s1, k, m, _, hm, hne, _⟩ | ⟨_, hlenS⟩
        · exact (hne (hn.no_item hm)).elim
        · have hpk : P.peak S = l.sweep.current.space.maxMemory := by
            rw [leaf_max hstate]
            have := hE'.peak P
            rw [hlenS, List.take_length] at this
            exact this.symm
          unfold DomS
          rw [at0_updateBest hlen, ← hlenS, hpk, if_neg (by omega)]
          split
          · exact Nat.le_refl _
          · exact Nat.min_le_right _ _
      · exact Or.inr hp
  | backInner hst hn hleaf =>
    refine ⟨fun _ => ?_, by simp⟩
    rcases hc with hd | hp
    · exact Or.inl hd
    · rw [hst, pending_cons] at hp
      rcases hp with ⟨hE', hp⟩ | hp
      · rcases hp with ⟨s1, k, m, _, hm, hne, _⟩ | ⟨h0, _⟩
        · exact (hne (hn.no_item hm)).elim
        · exact (hleaf h0).elim
      · exact Or.inr hp
  | @skip s' c k m bound hn hb hd =>
    refine ⟨fun _ => ?_, by simp⟩
    rcases hc with hd' | hp
    · exact Or.inl hd'
    · rcases hp.replace (c' := s') with ⟨hE', hp⟩ | hp
      · rcases hp with ⟨s1, k', m', hs1, hm, hne, hpm⟩ | ⟨h0, hlenS⟩
        · rw [hn.rem, List.mem_cons] at hm
          rcases hm with hm | hm
          · left
            simp only [Prod.mk.injEq] at hm
            obtain ⟨rfl, rfl⟩ := hm
            have hE2 := extends_snoc hE' hs1 hpm
            have h1 : minimumPathLength c.time l.path ≤ min (S.length + δ) P.n :=
              Nat.le_min.2 ⟨hδ _ _ _ hn.child hE2, minimumPathLength_le hP hn.child⟩
            have h2 := hE2.peak_le (P := P)
            rw [← leaf_max hn.child] at h2
            have h3 := hl.anti _ _ h1
            rw [at0_of_getElem? hb] at h3
            have h4 := hd trivial
            unfold DomS
            simp only
            omega
          · right
            exact Pending.head ⟨hE', Or.inl ⟨s1, k', m', hs1, hm, hne, hpm⟩⟩
        · right
          exact Pending.head ⟨hE', Or.inr ⟨by rw [hn.set]; exact h0, hlenS⟩⟩
      · exact Or.inr hp
  | @push s' c k m bound hn hb hlt =>
    refine ⟨fun _ => ?_, by simp⟩
    rcases hc with hd' | hp
    · exact Or.inl hd'
    · right
      rw [pending_cons]
      rcases hp.replace (c' := s') with ⟨hE', hp⟩ | hp
      · rcases hp with ⟨s1, k', m', hs1, hm, hne, hpm⟩ | ⟨h0, hlenS⟩
        · rw [hn.rem, List.mem_cons] at hm
          rcases hm with hm | hm
          · left
            simp only [Prod.mk.injEq] at hm
            obtain ⟨rfl, rfl⟩ := hm
            exact fresh_pendAt_max hn.child hn.fresh hS (extends_snoc hE' hs1 hpm)
          · right
            simp only [List.dropLast_concat]
            exact Pending.head ⟨hE', Or.inl ⟨s1, k', m', hs1, hm, hne, hpm⟩⟩
        · right
          simp only [List.dropLast_concat]
          exact Pending.head ⟨hE', Or.inr ⟨by rw [hn.set]; exact h0, hlenS⟩⟩
      · right
        simpa only [List.dropLast_concat] using hp

theorem domS_zero {P : Problem} {S : Schedule} (h : S.length ≤ P.n) (b : List Nat) :
    DomS P 0 b S ↔ Dom P b S := by
  unfold DomS Dom
  rw [Nat.add_zero, Nat.min_eq_left h]

theorem IterStep.cov1 {P : Problem} (hP : P.WF) {p0 : Schedule} {b0 : List Nat}
    {l l' : Loc} {stop : Bool} (h : IterStep P True l l' stop) (hl : LInv P p0 b0 l)
    {S : Schedule} (hS : P.Valid S)
    (hc : Dom P l.best S ∨ Pending S l.path l.sweep.current l.sweep.stack) :
    (stop = false → Dom P l'.best S ∨ Pending S l'.path l'.sweep.current l'.sweep.stack) ∧
    (stop = true → Dom P l'.best S ∨ (P.Valid p0 ∧ Extends p0 S ∧ p0.length = S.length)) := by
  have hSn : S.length ≤ P.n := by
    have h1 := hS.prefix hP.bits_nodup
    have := h1.length_le
    have := nodup_length_le_n hP.lax h1.nodup h1.sub
    omega
  have := h.cov1_slack hP.lax hl ((maximal_iff hP).2 hS) (δ := 0)
    (fun p m c hc he => minimumPathLength_le_of_extends hP.bits_nodup hc hS he)
  rw [domS_zero hSn, domS_zero hSn, maximal_iff hP] at this
  exact this hc

/-- The coverage invariant is kept, and when the loop ends everything is dominated (unless there was
nothing to search below the start). -/
theorem IterStep.cov {P : Problem} (hP : P.WF) {p0 : Schedule} {b0 : List Nat}
    {l l' : Loc} {stop : Bool} (h : IterStep P True l l' stop) (hl : LInv P p0 b0 l)
    (hc : Cov P p0 l) (hroot : ¬ P.Valid p0) :
    Cov P p0 l' ∧ (stop = true → ∀ S, P.Valid S → Extends p0 S → Dom P l'.best S) := by
  have key : stop = true → ∀ S, P.Valid S → Extends p0 S → Dom P l'.best S := by
    intro hs S hS hE
    rcases (h.cov1 hP hl hS (hc S hS hE)).2 hs with h1 | ⟨h1, _⟩
    · exact h1
    · exact (hroot h1).elim
  refine ⟨?_, key⟩
  intro S hS hE
  cases hs : stop with
  | true => exact Or.inl (key hs S hS hE)
  | false => exact (h.cov1 hP hl hS (hc S hS hE)).1 hs

end Verif
