import Verif.Model.Log
import Verif.Proofs.MinTime
/-!
# What the tasks of the pool find, according to their log

Every entry of a table, shared or not, comes from a result that some task still holds or has logged (`Wit`). A task
replaces a result only by one with less memory, so a schedule that was skipped because of an entry has a better one
among the results.
-/

namespace Verif
namespace Log

open Spec Search Search.Threaded

/-- The results have one of `t` steps with memory at most `u`. -/
def HasR (r : MappedPaths) (t u : Nat) : Prop := ∃ m S, r.get t = some (m, S) ∧ m ≤ u

/-- The results a task holds while it is running. -/
def live {σ : Type} : TaskState σ → MappedPaths
  | .running loc _ _ _ => loc.results
  | _ => []

/-- The table of a task. -/
def table {σ : Type} : TaskState σ → Option (List Nat)
  | .running loc _ _ _ => some loc.best
  | .finishing loc => some loc.best
  | _ => none

/-- Logged or held by a running task. -/
def Has {σ : Type} (g : Global σ) (acc : List DoneLine) (t u : Nat) : Prop :=
  (∃ d ∈ acc, HasR d.results t u) ∨ ∃ x ∈ g.tasks, HasR (live x) t u

/-- The entries of a table come from results in `F`. -/
def Wit (F : Nat → Nat → Prop) (best : List Nat) : Prop :=
  ∀ t, t < best.length → at0 best t = usizeMax ∨ ∃ t', t' ≤ t ∧ F t' (at0 best t)

theorem Wit.mono {F F' : Nat → Nat → Prop} {best : List Nat} (h : Wit F best) (hF : ∀ t u, F t u → F' t u) :
    Wit F' best := fun t ht => (h t ht).imp id fun ⟨t', h1, h2⟩ => ⟨t', h1, hF _ _ h2⟩

theorem HasR.up {r : MappedPaths} {t u v : Nat} (h : HasR r t u) (huv : u ≤ v) : HasR r t v := by
  obtain ⟨m, S, h1, h2⟩ := h
  exact ⟨m, S, h1, by omega⟩

theorem Has.up {σ : Type} {g : Global σ} {acc : List DoneLine} {t u v : Nat} (h : Has g acc t u) (huv : u ≤ v) :
    Has g acc t v := by
  rcases h with ⟨d, h1, h2⟩ | ⟨x, h1, h2⟩
  · exact Or.inl ⟨d, h1, h2.up huv⟩
  · exact Or.inr ⟨x, h1, h2.up huv⟩

theorem hasR_insert (r : MappedPaths) (t m : Nat) (S : Steps) : HasR (r.insert t (m, S)) t m :=
  ⟨m, S, by rw [AMap.get_insert]; simp, Nat.le_refl _⟩

/-- The invariant of the local variables. -/
structure LF (P : Problem) (p0 : Schedule) (l : Loc) : Prop where
  ok : LocOK P p0 l
  sound : ResultsOK P l.results
  le : ∀ t m S, l.results.get t = some (m, S) → at0 l.best t ≤ m
  leaf : ∀ T, LeafImproves T l

theorem le_record {best : List Nat} {results : MappedPaths} {S : Schedule} {u : Nat}
    (h : ∀ t m S, results.get t = some (m, S) → at0 best t ≤ m) (hlen : S.length < best.length) :
    ∀ t m S', (results.insert S.length (u, S)).get t = some (m, S') → at0 (updateBest best S.length u) t ≤ m := by
  intro t m S' hm
  rw [AMap.get_insert] at hm
  rw [at0_updateBest hlen]
  by_cases h2 : t = S.length
  · simp only [h2, if_true, Option.some.injEq, Prod.mk.injEq] at hm
    simp [h2, hm.1]
  · rw [if_neg h2] at hm
    have := h t m S' hm
    split
    · exact this
    · omega

theorem wit_record {F : Nat → Nat → Prop} {best : List Nat} {n u : Nat} (h : Wit F best) (hlen : n < best.length)
    (hF : F n u) : Wit F (updateBest best n u) := by
  intro t ht
  rw [show (updateBest best n u).length = best.length by simp [updateBest]] at ht
  rw [at0_updateBest hlen]
  by_cases h1 : t < n
  · rw [if_pos h1]; exact h t ht
  · rw [if_neg h1]
    by_cases h2 : t = n
    · rw [if_pos h2]; exact Or.inr ⟨n, by omega, hF⟩
    · rw [if_neg h2]
      rcases Nat.le_total (at0 best t) u with h3 | h3
      · rw [Nat.min_eq_left h3]; exact h t ht
      · rw [Nat.min_eq_right h3]; exact Or.inr ⟨n, by omega, hF⟩

/-- One iteration. -/
theorem iter {P : Problem} {Det : Prop} {p0 : Schedule} {l l' : Loc} {stop : Bool}
    (h : IterStep P Det l l' stop) (hl : LF P p0 l) :
    LF P p0 l' ∧ (∀ t u, HasR l.results t u → HasR l'.results t u) ∧
      ∀ F, Wit F l.best → (∀ t u, HasR l'.results t u → F t u) → Wit F l'.best := by
  have hok := h.locOK hl.ok
  have hres := h.resultsOK hl.ok hl.sound
  cases h with
  | stop hst hn hs hi => exact ⟨⟨hok, hres, hl.le, fun T h => by simp at h⟩, fun _ _ h => h, fun _ h _ => h⟩
  | backLeaf hst hn hleaf hlen =>
    refine ⟨⟨hok, hres, le_record hl.le hlen, ?_⟩, ?_, ?_⟩
    · intro T _ hs
      have h1 := hl.ok.chain
      rw [hst] at h1
      exact (h1.top_set_ne hs).elim
    · rintro t u ⟨m, S, h2, h3⟩
      by_cases h4 : t = l.path.length
      · refine ⟨l.sweep.current.space.maxMemory, l.path, by simp [AMap.get_insert, h4], ?_⟩
        have := hl.leaf t (by rw [hst]; simp) hleaf h4.symm m S h2
        omega
      · exact ⟨m, S, by simp only [AMap.get_insert]; rw [if_neg h4]; exact h2, h3⟩
    · intro F hw hF
      exact wit_record hw hlen (hF _ _ (hasR_insert _ _ _ _))
  | backInner hst hn hleaf =>
    refine ⟨⟨hok, hres, hl.le, ?_⟩, fun _ _ h => h, fun _ h _ => h⟩
    intro T _ hs
    have h1 := hl.ok.chain
    rw [hst] at h1
    exact (h1.top_set_ne hs).elim
  | skip hn hb hd =>
    refine ⟨⟨hok, hres, hl.le, ?_⟩, fun _ _ h => h, fun _ h _ => h⟩
    intro T _ hs
    exact (hn.set_ne hs).elim
  | @push s' c k m bound hn hb hlt =>
    refine ⟨⟨hok, hres, hl.le, ?_⟩, fun _ _ h => h, fun _ h _ => h⟩
    intro T _ hs hlen m' S' hg
    have hmin : minimumPathLength c.time l.path = l.path.length + 1 := by
      unfold minimumPathLength
      rw [if_pos ((atLeaf_isSome _).2 hs)]
    simp only [List.length_append, List.length_singleton] at hlen
    rw [hmin, hlen] at hb
    have h1 := hl.le T m' S' hg
    rw [at0_of_getElem? hb] at h1
    simp only at hlt ⊢
    omega

/-- Something at least as good as `S` is in `F`. -/
def DomF (P : Problem) (F : Nat → Nat → Prop) (S : Schedule) : Prop := ∃ t, t ≤ S.length ∧ F t (P.peak S)

/-- A schedule stays ahead until something as good is found. -/
theorem iter_cov {P : Problem} (hP : P.WF) {p0 : Schedule} {l l' : Loc} {stop : Bool}
    (h : IterStep P True l l' stop) (hl : LF P p0 l) {F : Nat → Nat → Prop} (hup : ∀ t u v, F t u → u ≤ v → F t v)
    (hw : Wit F l.best) (hF : ∀ t u, HasR l'.results t u → F t u) {S : Schedule} (hS : P.Valid S)
    (hp : Pending S l.path l.sweep.current l.sweep.stack) :
    (stop = false → DomF P F S ∨ Pending S l'.path l'.sweep.current l'.sweep.stack) ∧
    (stop = true → P.Valid p0 ∧ Extends p0 S ∧ p0.length = S.length) := by
  have hstate := hl.ok.chain.state.1
  cases h with
  | stop hst hn hs hi =>
    refine ⟨by simp, fun _ => ?_⟩
    rw [hst, pending_nil] at hp
    rcases hp.2 with ⟨s1, k, m, _, hm, hne, _⟩ | ⟨hset, hlen⟩
    · exact (hne (hn.no_item hm)).elim
    · have h1 := hl.ok.chain
      rw [hst] at h1
      have h2 := h1.base_path
      exact ⟨h2 ▸ leaf_valid hP hstate hset, h2 ▸ hp.1, h2 ▸ hlen⟩
  | backLeaf hst hn hleaf hlen =>
    refine ⟨fun _ => ?_, by simp⟩
    rw [hst, pending_cons] at hp
    rcases hp with ⟨hE', hp⟩ | hp
    · left
      rcases hp with ⟨s1, k, m, _, hm, hne, _⟩ | ⟨_, hlenS⟩
      · exact (hne (hn.no_item hm)).elim
      · have hpk : P.peak S = l.sweep.current.space.maxMemory := by
          rw [leaf_max hstate]
          have := hE'.peak P
          rw [hlenS, List.take_length] at this
          exact this.symm
        refine ⟨l.path.length, by omega, hF _ _ ((hasR_insert _ _ _ _).up (by omega))⟩
    · exact Or.inr hp
  | backInner hst hn hleaf =>
    refine ⟨fun _ => ?_, by simp⟩
    rw [hst, pending_cons] at hp
    rcases hp with ⟨hE', hp⟩ | hp
    · rcases hp with ⟨s1, k, m, _, hm, hne, _⟩ | ⟨h0, _⟩
      · exact (hne (hn.no_item hm)).elim
      · exact (hleaf h0).elim
    · exact Or.inr hp
  | @skip s' c k m bound hn hb hd =>
    refine ⟨fun _ => ?_, by simp⟩
    rcases hp.replace (c' := s') with ⟨hE', hp⟩ | hp
    · rcases hp with ⟨s1, k', m', hs1, hm, hne, hpm⟩ | ⟨h0, hlenS⟩
      · rw [hn.rem, List.mem_cons] at hm
        rcases hm with hm | hm
        · left
          simp only [Prod.mk.injEq] at hm
          obtain ⟨rfl, rfl⟩ := hm
          have hE2 := extends_snoc hE' hs1 hpm
          have h1 := minimumPathLength_le_of_extends hP.bits_nodup hn.child hS hE2
          have h2 := hE2.peak_le (P := P)
          rw [← leaf_max hn.child] at h2
          have h4 := hd trivial
          have h5 := at0_of_getElem? hb
          have h6 := (List.getElem?_eq_some_iff.1 hb).1
          have h7 := peak_lt_max hP S
          rcases hw _ h6 with h8 | ⟨t', h8, h9⟩
          · omega
          · exact ⟨t', by omega, hup _ _ _ h9 (by omega)⟩
        · right
          exact Pending.head ⟨hE', Or.inl ⟨s1, k', m', hs1, hm, hne, hpm⟩⟩
      · right
        exact Pending.head ⟨hE', Or.inr ⟨by rw [hn.set]; exact h0, hlenS⟩⟩
    · exact Or.inr hp
  | @push s' c k m bound hn hb hlt =>
    refine ⟨fun _ => ?_, by simp⟩
    right
    rw [pending_cons]
    rcases hp.replace (c' := s') with ⟨hE', hp⟩ | hp
    · rcases hp with ⟨s1, k', m', hs1, hm, hne, hpm⟩ | ⟨h0, hlenS⟩
      · rw [hn.rem, List.mem_cons] at hm
        rcases hm with hm | hm
        · left
          simp only [Prod.mk.injEq] at hm
          obtain ⟨rfl, rfl⟩ := hm
          exact fresh_pendAt_max hn.child hn.fresh ((maximal_iff hP).2 hS) (extends_snoc hE' hs1 hpm)
        · right
          simp only [List.dropLast_concat]
          exact Pending.head ⟨hE', Or.inl ⟨s1, k', m', hs1, hm, hne, hpm⟩⟩
      · right
        simp only [List.dropLast_concat]
        exact Pending.head ⟨hE', Or.inr ⟨by rw [hn.set]; exact h0, hlenS⟩⟩
    · right
      simpa only [List.dropLast_concat] using hp

/-- The invariant of a task. -/
inductive TaskF (P : Problem) {σ : Type} : TaskState σ → Prop
  | ready {sched : Scheduler Partitioner} {init : Option (List Nat)} {rng : σ}
      (hs : StateFor P (startPath init) sched) (hi : IterOK sched)
      (hf : init.isSome = true → Fresh sched) : TaskF P (.ready sched init rng)
  | running {loc : Loc} {rng : σ} {counter : Nat} {wasInit : Bool} (p0 : Schedule)
      (hl : LF P p0 loc) (hc : counter = 0 → loc.sweep.stack = [] ∧ loc.results = [])
      (hf : counter = 0 → wasInit = true → Fresh loc.sweep.current)
      (hw : wasInit = false → p0 = []) (hnv : counter ≠ 0 → ¬ P.Valid p0)
      : TaskF P (.running loc rng counter wasInit)
  | finishing {loc : Loc} (hlen : loc.best.length = P.n + 1) (hsound : ResultsOK P loc.results)
      (hle : ∀ t m S, loc.results.get t = some (m, S) → at0 loc.best t ≤ m) : TaskF P (.finishing loc)
  | done : TaskF P .done

/-- The task will still meet `S`. -/
def Ahead (S : Schedule) {σ : Type} : TaskState σ → Prop
  | .ready sched init _ => PendAt S (startPath init) sched
  | .running loc _ _ _ => Pending S loc.path loc.sweep.current loc.sweep.stack
  | _ => False

/-- The invariant of the pool and the lines logged so far. -/
structure PoolF (P : Problem) {σ : Type} (g : Global σ) (acc : List DoneLine) : Prop where
  len : g.best.length = P.n + 1
  tasks : ∀ x ∈ g.tasks, TaskF P x
  log : ∀ d ∈ acc, ResultsOK P d.results
  logLen : ∀ d ∈ acc, d.best.length = P.n + 1
  witS : Wit (Has g acc) g.best
  witT : ∀ x ∈ g.tasks, ∀ b, table x = some b → Wit (Has g acc) b
  src : ∀ t r, g.results.get t = some r → ∃ d ∈ acc, d.results.get t = some r
  fin : ∀ loc, .finishing loc ∈ g.tasks → ∃ d ∈ acc, d.results = loc.results ∧ d.best = loc.best

/-- `S` will still be met or something as good is found. -/
def Cov (P : Problem) (S : Schedule) {σ : Type} (g : Global σ) (acc : List DoneLine) : Prop :=
  DomF P (Has g acc) S ∨ ∃ x ∈ g.tasks, Ahead S x

/-- A logged result of `t` steps with memory `m` is or will be merged. -/
def Kept (t m : Nat) {σ : Type} (g : Global σ) (acc : List DoneLine) : Prop :=
  (∃ d ∈ acc, ∃ S, d.results.get t = some (m, S)) → (at0 g.best t ≤ m ∧ ∃ S, g.results.get t = some (m, S)) ∨
    ∃ loc, .finishing loc ∈ g.tasks ∧ ∃ S, loc.results.get t = some (m, S)

/-- Nothing with at most `t` steps is below `m`. -/
def Low (t m : Nat) {σ : Type} (g : Global σ) (acc : List DoneLine) : Prop :=
  ∀ t' u, t' ≤ t → Has g acc t' u → m ≤ u

/-- No line whose table has `m` at `t` has a result of `t` steps with another memory. -/
def NoClash (t m : Nat) (acc : List DoneLine) : Prop :=
  ∀ d ∈ acc, ∀ m' S, d.results.get t = some (m', S) → at0 d.best t = m → m' = m

theorem mem_set_other {α : Type} {l : List α} {i : Nat} {a b x : α} (h : l[i]? = some a) (hx : x ∈ l) :
    x = a ∨ x ∈ l.set i b := by
  obtain ⟨j, hj, rfl⟩ := List.getElem_of_mem hx
  by_cases hij : j = i
  · subst hij
    rw [List.getElem?_eq_getElem hj] at h
    exact Or.inl (Option.some.inj h)
  · right
    refine List.mem_of_getElem? (i := j) ?_
    rw [List.getElem?_set_ne (fun h => hij h.symm)]
    exact List.getElem?_eq_getElem hj

theorem mem_set_self' {α : Type} {l : List α} {i : Nat} {a b : α} (h : l[i]? = some a) : b ∈ l.set i b := by
  refine List.mem_of_getElem? (i := i) ?_
  simp [(List.getElem?_eq_some_iff.1 h).1]

/-- What a move does. -/
structure Step (P : Problem) {σ : Type} (Det : Prop) (g g' : Global σ) (acc acc' : List DoneLine) : Prop where
  inv : PoolF P g' acc'
  mono : ∀ t u, Has g acc t u → Has g' acc' t u
  cov : Det → ∀ S, P.Valid S → Cov P S g acc → Cov P S g' acc'
  kept : ∀ t m, NoClash t m acc → Low t m g acc → Kept t m g acc → Kept t m g' acc'

/-- Changing one task and the shared state. -/
theorem set {P : Problem} {σ : Type} {Det : Prop} {g : Global σ} {acc : List DoneLine} (h : PoolF P g acc) {i : Nat}
    {a b : TaskState σ} (ha : g.tasks[i]? = some a) {best' : List Nat} {results' : MappedPaths} {ls : List DoneLine}
    (hlen : best'.length = P.n + 1) (hb : TaskF P b) (hlog : ∀ d ∈ ls, ResultsOK P d.results)
    (hhas : ∀ t u, HasR (live a) t u → (∃ d ∈ ls, HasR d.results t u) ∨ HasR (live b) t u)
    (hwit : ∀ F : Nat → Nat → Prop, (∀ t u v, F t u → u ≤ v → F t v) → (∀ d ∈ ls, ∀ t u, HasR d.results t u → F t u) →
      (∀ t u, HasR (live b) t u → F t u) → Wit F g.best → (∀ c, table a = some c → Wit F c) →
      Wit F best' ∧ (∀ c, table b = some c → Wit F c) ∧
        (Det → ∀ S, P.Valid S → Ahead S a → DomF P F S ∨ Ahead S b))
    (hsrc : ∀ t r, results'.get t = some r → g.results.get t = some r ∨ ∃ loc, a = .finishing loc ∧
      loc.results.get t = some r)
    (hfin : ∀ loc, b = .finishing loc → ∃ d ∈ ls, d.results = loc.results ∧ d.best = loc.best)
    (hls : ∀ d ∈ ls, ∃ loc, b = .finishing loc ∧ d.results = loc.results ∧ d.best = loc.best)
    (hres : ∀ t m, NoClash t m acc → Low t m g acc → at0 g.best t ≤ m → (∃ S, g.results.get t = some (m, S)) →
      at0 best' t ≤ m ∧ ∃ S, results'.get t = some (m, S))
    (hmerge : ∀ t m, Low t m g acc → ∀ loc, a = .finishing loc → (∃ S, loc.results.get t = some (m, S)) →
      at0 best' t ≤ m ∧ ∃ S, results'.get t = some (m, S)) :
    Step P Det g ⟨best', results', g.tasks.set i b⟩ acc (acc ++ ls) := by
  have hself : b ∈ g.tasks.set i b := mem_set_self' ha
  have hmono : ∀ t u, Has g acc t u → Has (⟨best', results', g.tasks.set i b⟩ : Global σ) (acc ++ ls) t u := by
    rintro t u (⟨d, h1, h2⟩ | ⟨x, h1, h2⟩)
    · exact Or.inl ⟨d, List.mem_append_left _ h1, h2⟩
    · rcases mem_set_other (b := b) ha h1 with rfl | h3
      · rcases hhas t u h2 with ⟨d, h3, h4⟩ | h3
        · exact Or.inl ⟨d, List.mem_append_right _ h3, h4⟩
        · exact Or.inr ⟨b, hself, h3⟩
      · exact Or.inr ⟨x, h3, h2⟩
  obtain ⟨w1, w2, w3⟩ := hwit (Has (⟨best', results', g.tasks.set i b⟩ : Global σ) (acc ++ ls))
    (fun t u v h1 h2 => h1.up h2) (fun d hd t u h1 => Or.inl ⟨d, List.mem_append_right _ hd, h1⟩)
    (fun t u h1 => Or.inr ⟨b, hself, h1⟩) (h.witS.mono hmono)
    (fun c hc => (h.witT a (List.mem_of_getElem? ha) c hc).mono hmono)
  refine ⟨⟨hlen, ?_, ?_, ?_, w1, ?_, ?_, ?_⟩, hmono, ?_, ?_⟩
  · intro x hx
    rcases List.mem_or_eq_of_mem_set hx with h1 | h1
    · exact h.tasks x h1
    · exact h1 ▸ hb
  · intro d hd
    rcases List.mem_append.1 hd with h1 | h1
    · exact h.log d h1
    · exact hlog d h1
  · intro d hd
    rcases List.mem_append.1 hd with h1 | h1
    · exact h.logLen d h1
    · obtain ⟨loc, h2, _, h3⟩ := hls d h1
      subst h2
      cases hb with
      | finishing hlen' _ _ => rw [h3]; exact hlen'
  · intro x hx c hc
    rcases List.mem_or_eq_of_mem_set hx with h1 | h1
    · exact (h.witT x h1 c hc).mono hmono
    · subst h1; exact w2 c hc
  · intro t r hr
    rcases hsrc t r hr with h1 | ⟨loc, h1, h2⟩
    · obtain ⟨d, h3, h4⟩ := h.src t r h1
      exact ⟨d, List.mem_append_left _ h3, h4⟩
    · subst h1
      obtain ⟨d, h3, h4⟩ := h.fin loc (List.mem_of_getElem? ha)
      exact ⟨d, List.mem_append_left _ h3, h4.1 ▸ h2⟩
  · intro loc hx
    rcases List.mem_or_eq_of_mem_set hx with h1 | h1
    · obtain ⟨d, h3, h4⟩ := h.fin loc h1
      exact ⟨d, List.mem_append_left _ h3, h4⟩
    · obtain ⟨d, h3, h4⟩ := hfin loc h1.symm
      exact ⟨d, List.mem_append_right _ h3, h4⟩
  · rintro hD S hS (⟨t, h1, h2⟩ | ⟨x, h1, h2⟩)
    · exact Or.inl ⟨t, h1, hmono _ _ h2⟩
    · rcases mem_set_other (b := b) ha h1 with rfl | h3
      · rcases w3 hD S hS h2 with h4 | h4
        · exact Or.inl h4
        · exact Or.inr ⟨b, hself, h4⟩
      · exact Or.inr ⟨x, h3, h2⟩
  · rintro t m hnc hlow hk ⟨d, hd, S, hS⟩
    rcases List.mem_append.1 hd with h1 | h1
    · rcases hk ⟨d, h1, S, hS⟩ with h2 | ⟨loc, h2, h3⟩
      · exact Or.inl (hres t m hnc hlow h2.1 h2.2)
      · rcases mem_set_other (b := b) ha h2 with h4 | h4
        · exact Or.inl (hmerge t m hlow loc h4.symm h3)
        · exact Or.inr ⟨loc, h4, h3⟩
    · obtain ⟨loc, h2, h3⟩ := hls d h1
      exact Or.inr ⟨loc, h2 ▸ hself, S, h3.1 ▸ hS⟩

/-- Nothing changes. -/
theorem Step.refl {P : Problem} {σ : Type} {Det : Prop} {g : Global σ} {acc : List DoneLine} (h : PoolF P g acc) :
    Step P Det g g acc acc := ⟨h, fun _ _ h => h, fun _ _ _ h => h, fun _ _ _ _ h => h⟩

theorem wit_exchange {F : Nat → Nat → Prop} {s t : List Nat} (hlen : s.length = t.length) (hs : Wit F s) (ht : Wit F t) :
    Wit F (exchange s t).1 ∧ Wit F (exchange s t).2 := by
  have hex := exchange_at s t hlen
  have hexl := exchange_length s t
  have key : ∀ i, i < s.length → min (at0 s i) (at0 t i) = usizeMax ∨ ∃ j, j ≤ i ∧ F j (min (at0 s i) (at0 t i)) := by
    intro i hi
    rcases Nat.le_total (at0 s i) (at0 t i) with h | h
    · rw [Nat.min_eq_left h]; exact hs i hi
    · rw [Nat.min_eq_right h]; exact ht i (by omega)
  constructor
  · intro i hi
    rw [hexl.1] at hi
    rw [(hex i).1]
    exact key i hi
  · intro i hi
    rw [hexl.2] at hi
    rw [(hex i).2]
    exact key i (by omega)

/-- Whether the search is deterministic. -/
def IsDet {F σ : Type} : Mode F σ → Prop
  | .det => True
  | .prob _ _ => False

theorem not_valid_of_continue {P : Problem} (hP : P.WF) {Det : Prop} {p0 : Schedule} {l l' : Loc}
    (h : IterStep P Det l l' false) (hl : LocOK P p0 l) (hst : l.sweep.stack = []) : ¬ P.Valid p0 := by
  have h1 := hl.chain
  rw [hst] at h1
  have hpath := h1.base_path
  have hstate := hl.chain.state.1
  intro hv
  have hset := (leaf_iff hP hstate).2 (hpath ▸ hv)
  cases h with
  | backLeaf hst' => rw [hst] at hst'; simp at hst'
  | backInner hst' => rw [hst] at hst'; simp at hst'
  | skip hn =>
    have := hn.set_ne
    rw [hn.set] at this
    exact this hset
  | push hn =>
    have := hn.set_ne
    rw [hn.set] at this
    exact this hset

/-- A move. The timer must not fire for the coverage. -/
theorem move_step {F σ : Type} [FloatOps F] (mode : Mode F σ) {P : Problem} (hP : P.WF) (hb : P.bits ≠ [])
    {g g' : Global σ} {acc : List DoneLine} (hg : PoolF P g acc) {i : Nat} {tb : Bool} {prof : Profile}
    (hm : move mode prof g i tb = .ok g') :
    Step P (IsDet mode ∧ tb = false) g g' acc (acc ++ doneLine g.tasks.length i g.tasks[i]? g'.tasks[i]?) := by
  cases ht : g.tasks[i]? with
  | none =>
    simp only [move, ht, pure, Except.pure, Except.ok.injEq] at hm
    subst hm
    simpa [doneLine] using Step.refl hg
  | some a =>
    have hi := (List.getElem?_eq_some_iff.1 ht).1
    have hok := hg.tasks a (List.mem_of_getElem? ht)
    cases hok with
    | @ready sched init rng hs hi' hf =>
      simp only [move, ht, pure, Except.pure, Except.ok.injEq] at hm
      subst hm
      have hl := start_locOK hs hi' hg.len
      have hpath : (startLoc sched init g.best).path = startPath init := by
        cases init <;> simp [startLoc, startPath]
      simp only [doneLine]
      refine set hg ht hg.len ?_ (by simp) ?_ ?_ (fun t r h => Or.inl h) (by simp) (by simp) (fun _ _ _ _ h1 h2 => ⟨h1, h2⟩) (by simp)
      · refine .running (startPath init) ⟨hl, ?_, ?_, ?_⟩ ?_ ?_ ?_ ?_
        · intro t m S h; simp [startLoc] at h
        · intro t m S h; simp [startLoc] at h
        · intro T h; simp [startLoc, Sweep.new] at h
        · intro _; exact ⟨rfl, rfl⟩
        · intro _ hw; exact hf hw
        · intro hw; cases init with
          | none => rfl
          | some m => simp at hw
        · intro h; exact (h rfl).elim
      · rintro t u ⟨m, S, h, _⟩; simp [live] at h
      · intro F hup _ _ hw _
        refine ⟨hw, ?_, ?_⟩
        · intro c hc
          simp only [table, Option.some.injEq] at hc
          subst hc
          exact hw
        · intro _ S hS hc
          right
          simp only [Ahead]
          rw [hpath]
          exact Pending.head hc
    | @running loc rng counter wasInit p0 hl hc hf hw hnv =>
      obtain ⟨l', rng', stop, e1, e2⟩ := modeIter_spec mode rng hP.lax hl.ok
      obtain ⟨i1, i2, i3⟩ := iter e2 hl
      cases stop with
      | true =>
        obtain ⟨_, hcase⟩ := finishLoop_spec hP.lax e2 hl.ok hl.sound (fun a b => ⟨hf a b, (hc a).1⟩)
        have hcov : IsDet mode → ∀ S, P.Valid S → Ahead S (TaskState.running loc rng counter wasInit) →
            P.Valid p0 ∧ Extends p0 S ∧ p0.length = S.length := by
          intro hD S hS hA
          cases mode with
          | prob => exact hD.elim
          | det =>
            exact (iter_cov hP e2 hl (F := fun _ _ => True) (fun _ _ _ h _ => h) (fun t ht' => Or.inr ⟨t, Nat.le_refl _, trivial⟩)
              (fun _ _ _ => trivial) hS hA).2 rfl
        rcases hcase with ⟨hn, hfin⟩ | ⟨hc0, hwi, hv, hpath, hbest, hres, hlen, hfin⟩
        · simp only [move, ht, e1 prof, bind, Except.bind, pure, Except.pure, ↓reduceIte,
            hfin, Except.ok.injEq] at hm
          subst hm
          have hnv' : ¬ P.Valid p0 := by
            by_cases h0 : counter = 0
            · have : wasInit = false := by
                cases hwb : wasInit with
                | false => rfl
                | true => exact (hn ⟨h0, hwb⟩).elim
              rw [hw this]
              exact not_valid_nil hb
            · exact hnv h0
          simp only [doneLine, List.getElem?_set_self hi]
          refine set hg ht hg.len (.finishing i1.ok.best i1.sound i1.le) (by simpa using i1.sound) ?_ ?_
            (fun t r h => Or.inl h) (by simp) (by simp) (fun _ _ _ _ h1 h2 => ⟨h1, h2⟩) (by simp)
          · intro t u h
            exact Or.inl ⟨_, List.mem_singleton.2 rfl, i2 t u h⟩
          · intro F hup hF _ hw' hT
            refine ⟨hw', ?_, ?_⟩
            · intro c hc'
              simp only [table, Option.some.injEq] at hc'
              subst hc'
              exact i3 F (hT _ rfl) (fun t u h => hF _ (List.mem_singleton.2 rfl) t u h)
            · intro hD S hS hA
              exact (hnv' (hcov hD.1 S hS hA).1).elim
        · simp only [move, ht, e1 prof, bind, Except.bind, pure, Except.pure, ↓reduceIte,
            hfin, Except.ok.injEq] at hm
          subst hm
          have hres0 := (hc hc0).2
          simp only [doneLine, List.getElem?_set_self hi]
          have hsound := hl.sound.insert hv
          refine set hg ht hg.len (.finishing (by simpa [updateBest] using hl.ok.best) hsound
            (le_record hl.le hlen)) (by simpa using hsound) ?_ ?_
            (fun t r h => Or.inl h) (by simp) (by simp) (fun _ _ _ _ h1 h2 => ⟨h1, h2⟩) (by simp)
          · rintro t u ⟨m, S', h1, _⟩
            simp only [live] at h1
            rw [hres0] at h1
            simp at h1
          · intro F hup hF _ hw' hT
            have hF' : F p0.length (P.peak p0) := hF _ (List.mem_singleton.2 rfl) _ _ (hasR_insert _ _ _ _)
            refine ⟨hw', ?_, ?_⟩
            · intro c hc'
              simp only [table, Option.some.injEq] at hc'
              subst hc'
              exact wit_record (hT _ rfl) hlen hF'
            · intro hD S hS hA
              obtain ⟨k1, k2, k3⟩ := hcov hD.1 S hS hA
              left
              have hE := k2.peak P
              rw [k3, List.take_length] at hE
              exact ⟨p0.length, by omega, by rw [← hE]; exact hF'⟩
      | false =>
        have hnv' : ¬ P.Valid p0 := by
          by_cases h0 : counter = 0
          · exact not_valid_of_continue hP e2 hl.ok (hc h0).1
          · exact hnv h0
        have hcov : IsDet mode → ∀ F : Nat → Nat → Prop, (∀ t u v, F t u → u ≤ v → F t v) → Wit F loc.best →
            (∀ t u, HasR l'.results t u → F t u) → ∀ S, P.Valid S →
            Ahead S (TaskState.running loc rng counter wasInit) →
            DomF P F S ∨ Pending S l'.path l'.sweep.current l'.sweep.stack := by
          intro hD F hup hw' hF S hS hA
          cases mode with
          | prob => exact hD.elim
          | det => exact (iter_cov hP e2 hl hup hw' hF hS hA).1 rfl
        by_cases hcu : counter = updateInterval
        · have hlen : g.best.length = l'.best.length := by rw [hg.len, i1.ok.best]
          have hex := exchange_at g.best l'.best hlen
          have hexl := exchange_length g.best l'.best
          have hle : ∀ t m S, l'.results.get t = some (m, S) → at0 (exchange g.best l'.best).2 t ≤ m := by
            intro t m S h
            have := i1.le t m S h
            rw [(hex t).2]
            omega
          cases tb with
          | true =>
            simp only [move, ht, e1 prof, bind, Except.bind, pure, Except.pure,
              Bool.false_eq_true, ↓reduceIte, hcu, Except.ok.injEq] at hm
            subst hm
            simp only [doneLine, List.getElem?_set_self hi]
            refine set hg ht (by rw [hexl.1]; exact hg.len)
              (.finishing (by rw [hexl.2]; exact i1.ok.best) i1.sound hle) (by simpa using i1.sound) ?_ ?_
              (fun t r h => Or.inl h) (by simp) (by simp) (fun t _ _ _ h1 h2 => ⟨by rw [(hex t).1]; omega, h2⟩) (by simp)
            · intro t u h
              exact Or.inl ⟨_, List.mem_singleton.2 rfl, i2 t u h⟩
            · intro F hup hF _ hw' hT
              have h1 := i3 F (hT _ rfl) (fun t u h => hF _ (List.mem_singleton.2 rfl) t u h)
              have h2 := wit_exchange hlen hw' h1
              refine ⟨h2.1, ?_, fun hD => by simp at hD⟩
              intro c hc'
              simp only [table, Option.some.injEq] at hc'
              subst hc'
              exact h2.2
          | false =>
            simp only [move, ht, e1 prof, bind, Except.bind, pure, Except.pure,
              Bool.false_eq_true, ↓reduceIte, hcu, Except.ok.injEq] at hm
            subst hm
            simp only [doneLine, List.getElem?_set_self hi]
            refine set hg ht (by rw [hexl.1]; exact hg.len)
              (.running p0 ⟨⟨i1.ok.chain, by rw [hexl.2]; exact i1.ok.best⟩, i1.sound, hle, i1.leaf⟩ (by simp) (by simp) hw
                (fun _ => hnv')) (by simp) ?_ ?_
              (fun t r h => Or.inl h) (by simp) (by simp) (fun t _ _ _ h1 h2 => ⟨by rw [(hex t).1]; omega, h2⟩) (by simp)
            · intro t u h
              exact Or.inr (i2 t u h)
            · intro F hup _ hF hw' hT
              have h1 := i3 F (hT _ rfl) hF
              have h2 := wit_exchange hlen hw' h1
              refine ⟨h2.1, ?_, fun hD S hS hA => hcov hD.1 F hup (hT _ rfl) hF S hS hA⟩
              intro c hc'
              simp only [table, Option.some.injEq] at hc'
              subst hc'
              exact h2.2
        · simp only [move, ht, e1 prof, bind, Except.bind, pure, Except.pure,
            Bool.false_eq_true, ↓reduceIte, hcu, Except.ok.injEq] at hm
          subst hm
          simp only [doneLine, List.getElem?_set_self hi]
          refine set hg ht hg.len (.running p0 i1 (by simp) (by simp) hw (fun _ => hnv')) (by simp) ?_ ?_
            (fun t r h => Or.inl h) (by simp) (by simp) (fun _ _ _ _ h1 h2 => ⟨h1, h2⟩) (by simp)
          · intro t u h
            exact Or.inr (i2 t u h)
          · intro F hup _ hF hw' hT
            refine ⟨hw', ?_, fun hD S hS hA => hcov hD.1 F hup (hT _ rfl) hF S hS hA⟩
            intro c hc'
            simp only [table, Option.some.injEq] at hc'
            subst hc'
            exact i3 F (hT _ rfl) hF
    | @finishing loc hlen hsound hle =>
      have hlen' : g.best.length = loc.best.length := by rw [hg.len, hlen]
      cases hemp : loc.results.isEmpty with
      | true =>
        have hnil : loc.results = [] := by simpa using hemp
        simp only [move, ht, hemp, pure, Except.pure, ↓reduceIte, Except.ok.injEq] at hm
        subst hm
        simp only [doneLine]
        refine set hg ht hg.len .done (by simp) ?_ ?_ (fun t r h => Or.inl h) (by simp) (by simp) (fun _ _ _ _ h1 h2 => ⟨h1, h2⟩) ?_
        · rintro t u ⟨m, S, h, _⟩; simp [live] at h
        · intro F _ _ _ hw _
          exact ⟨hw, by simp [table], fun _ S _ hA => hA.elim⟩
        · rintro t m _ loc' h ⟨S, h2⟩
          cases h
          rw [hnil] at h2
          simp at h2
      | false =>
        simp only [move, ht, hemp, pure, Except.pure, Bool.false_eq_true, ↓reduceIte,
          Except.ok.injEq] at hm
        subst hm
        obtain ⟨m1, m2, m3⟩ := mergeLoop_spec g.best loc.best 0 loc.results g.results hlen'
        simp only [doneLine]
        refine set hg ht (by rw [m1]; exact hg.len) .done (by simp) ?_ ?_ ?_ (by simp) (by simp) ?_ ?_
        · rintro t u ⟨m, S, h, _⟩; simp [live] at h
        · intro F _ _ _ hw hT
          refine ⟨?_, by simp [table], fun _ S _ hA => hA.elim⟩
          intro t ht'
          rw [m1] at ht'
          rw [m2]
          rcases Nat.le_total (at0 g.best t) (at0 loc.best t) with h | h
          · rw [Nat.min_eq_left h]; exact hw t ht'
          · rw [Nat.min_eq_right h]; exact hT _ rfl t (by omega)
        · intro t r h
          rw [m3 t] at h
          split at h
          · exact Or.inr ⟨loc, rfl, h⟩
          · exact Or.inl h
        · rintro t m hnc hlow hle' ⟨S, h1⟩
          refine ⟨by rw [m2]; omega, ?_⟩
          rw [m3 t]
          split
          · rename_i h2
            obtain ⟨_, h3, h4, h5⟩ := h2
            obtain ⟨⟨m', S'⟩, h6⟩ := Option.isSome_iff_exists.1 h5
            simp only [Nat.sub_zero] at h4
            obtain ⟨d, d1, d2, d3⟩ := hg.fin loc (List.mem_of_getElem? ht)
            obtain ⟨d0, k1, k2⟩ := hg.src t _ h1
            obtain ⟨k3, k4, k5⟩ := hg.log d0 k1 t m S k2
            have hpk := peak_lt_max hP S
            have hge : m ≤ at0 loc.best t := by
              rcases hg.witT _ (List.mem_of_getElem? ht) _ rfl t (by omega) with h7 | ⟨t', h7, h8⟩
              · omega
              · exact hlow _ _ h7 h8
            have := hnc d d1 m' S' (by rw [d2]; exact h6) (by rw [d3]; omega)
            exact ⟨S', by rw [h6, this]⟩
          · exact ⟨S, h1⟩
        · rintro t m hlow loc' h ⟨S, h2⟩
          cases h
          obtain ⟨k1, k2, k3⟩ := hsound t m S h2
          have htn : t < g.best.length := by
            rw [hg.len, ← k2]
            have := ((maximal_iff hP).1 k1).length_le hP
            omega
          have hmle : m ≤ at0 g.best t := by
            rcases hg.witS t htn with h3 | ⟨t', h3, h4⟩
            · have := peak_lt_max hP S
              omega
            · exact hlow _ _ h3 h4
          have := hle t m S h2
          refine ⟨by rw [m2]; omega, S, ?_⟩
          rw [m3 t, if_pos ⟨Nat.zero_le _, by omega, by simp; omega, by rw [h2]; rfl⟩]
          exact h2
    | done =>
      simp only [move, ht, pure, Except.pure, Except.ok.injEq] at hm
      subst hm
      simpa [doneLine] using Step.refl hg

end Log
end Verif
