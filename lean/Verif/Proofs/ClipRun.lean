import Verif.Proofs.Clip
import Verif.Spec
/-!
# Neighbours that are not nodes: the searches

`Rel` for `run` on a graph and on the clipped graph. On the way it is shown that only qubits of the ordering are ever
measured, and that the qubits of the paths that are returned have been measured.
-/

namespace Verif.Clip

open Search Search.Threaded

section time

variable {T : Type} [MeasurableSet T] {B : List Nat}

/-- Only qubits in `B` are measurable or can become measurable. -/
structure TInv (B : List Nat) (t : PathGenerator T) : Prop where
  set : ∀ b ∈ MeasurableSet.set t.measurable, b ∈ B
  deps : ∀ l ∈ t.dependents, ∀ b ∈ l, b ∈ B

theorem updateDependents_mem (prof : Profile) (bits : List Nat) : ∀ (deps : AMap Nat) (new : List Nat) r,
    PathGenerator.updateDependents prof bits deps new = .ok r → ∀ b ∈ r.2, b ∈ new ∨ b ∈ bits := by
  induction bits with
  | nil =>
    intro deps new r h b hb
    cases h
    exact Or.inl hb
  | cons x bits ih =>
    intro deps new r h b hb
    unfold PathGenerator.updateDependents at h
    split at h
    · simp at h
    · rename_i count hc
      cases hs : usizeSub prof count 1 with
      | error e => simp [hs, bind, Except.bind] at h
      | ok count' =>
        simp only [hs, bind, Except.bind] at h
        split at h
        · rcases ih _ _ r h b hb with h' | h'
          · rcases List.mem_append.1 h' with h' | h'
            · exact Or.inl h'
            · exact Or.inr (by simp at h'; simp [h'])
          · exact Or.inr (by simp [h'])
        · rcases ih _ _ r h b hb with h' | h'
          · exact Or.inl h'
          · exact Or.inr (by simp [h'])

theorem updateUnchecked_mem (prof : Profile) (look : Dependents) (hl : ∀ l ∈ look, ∀ b ∈ l, b ∈ B) (ms : List Nat) :
    ∀ (deps : AMap Nat) (new : List Nat) r, (∀ b ∈ new, b ∈ B) →
    PathGenerator.updateUnchecked prof look ms deps new = .ok r → ∀ b ∈ r.2, b ∈ B := by
  induction ms with
  | nil =>
    intro deps new r hn h b hb
    cases h
    exact hn b hb
  | cons m ms ih =>
    intro deps new r hn h b hb
    unfold PathGenerator.updateUnchecked at h
    cases hi : idx look m with
    | error e => simp [hi, bind, Except.bind] at h
    | ok l =>
      simp only [hi, bind, Except.bind] at h
      have hlm : l ∈ look := by
        unfold idx at hi
        split at hi
        · rename_i x hx
          cases hi
          exact List.mem_of_getElem? hx
        · simp at hi
      cases hu : PathGenerator.updateDependents prof l deps new with
      | error e => simp [hu] at h
      | ok v =>
        simp only [hu] at h
        refine ih v.1 v.2 r (fun c hc => ?_) h b hb
        rcases updateDependents_mem prof l deps new v hu c hc with h' | h'
        · exact hn c h'
        · exact hl l hlm c h'

theorem focusUnchecked_tinv (hset : ∀ l, MeasurableSet.set (MeasurableSet.init (T := T) l) = l) (prof : Profile)
    {t : PathGenerator T} (h : TInv B t) {ms new : List Nat} (hn : ∀ b ∈ new, b ∈ B) {t' : PathGenerator T}
    (ht : t.focusUnchecked prof ms new = .ok t') : TInv B t' := by
  unfold PathGenerator.focusUnchecked at ht
  cases hu : PathGenerator.updateUnchecked prof t.dependents ms t.depsCounter new with
  | error e => simp [hu, bind, Except.bind] at ht
  | ok v =>
    simp only [hu, bind, Except.bind, pure, Except.pure, Except.ok.injEq] at ht
    subst ht
    refine ⟨?_, h.deps⟩
    simp only [hset]
    exact updateUnchecked_mem prof _ h.deps ms _ new v hn hu

theorem split_mem (s : List Nat) : ∀ (i : Nat) (sub : List Nat) (b : Nat),
    (b ∈ (Partition.split s i sub).1 → b ∈ s) ∧ (b ∈ (Partition.split s i sub).2 → b ∈ s) := by
  induction s with
  | nil => intro i sub b; simp [Partition.split]
  | cons e s ih =>
    intro i sub b
    cases sub with
    | nil =>
      simp only [Partition.split, List.mem_cons]
      exact ⟨fun h => Or.inr ((ih (i + 1) [] b).1 h), fun h => h.imp id (ih (i + 1) [] b).2⟩
    | cons p ps =>
      simp only [Partition.split]
      split
      · simp only [List.mem_cons]
        exact ⟨fun h => h.imp id (ih (i + 1) ps b).1, fun h => Or.inr ((ih (i + 1) ps b).2 h)⟩
      · simp only [List.mem_cons]
        exact ⟨fun h => Or.inr ((ih (i + 1) (p :: ps) b).1 h), fun h => h.imp id (ih (i + 1) (p :: ps) b).2⟩

theorem time_nextAndFocus_tinv (prof : Profile) {t : PathGenerator Partitioner} (h : TInv B t) {r}
    (hr : t.nextAndFocus prof = .ok r) :
    TInv B r.1 ∧ ∀ v, r.2 = some v → TInv B v.1 ∧ ∀ b ∈ v.2, b ∈ B := by
  unfold PathGenerator.nextAndFocus at hr
  have hset : ∀ b ∈ t.measurable.set, b ∈ B := h.set
  cases hit : t.measurable.iter with
  | nil =>
    simp only [Partition.next, hit, pure, Except.pure, Except.ok.injEq] at hr
    subst hr
    exact ⟨⟨h.set, h.deps⟩, by simp⟩
  | cons sub rest =>
    simp only [Partition.next, hit] at hr
    have hg : TInv B { t with measurable := { t.measurable with iter := rest } } := ⟨h.set, h.deps⟩
    split at hr
    · simp only [pure, Except.pure, Except.ok.injEq] at hr
      subst hr
      exact ⟨hg, by simp⟩
    · cases hf : PathGenerator.focusUnchecked prof { t with measurable := { t.measurable with iter := rest } }
          (Partition.split t.measurable.set 0 sub).2 (Partition.split t.measurable.set 0 sub).1 with
      | error e => simp [hf, bind, Except.bind] at hr
      | ok t' =>
        simp only [hf, bind, Except.bind, pure, Except.pure, Except.ok.injEq] at hr
        subst hr
        refine ⟨hg, ?_⟩
        rintro v ⟨⟩
        exact ⟨focusUnchecked_tinv (fun _ => rfl) prof hg
          (fun b hb => hset b ((split_mem _ _ _ b).1 hb)) hf, fun b hb => hset b ((split_mem _ _ _ b).2 hb)⟩

theorem partitionLoop_mem (es : List Nat) : ∀ (copy : List Nat), ∀ b ∈ (PathGenerator.partitionLoop es copy).2,
    b ∈ es := by
  induction es with
  | nil => intro copy b hb; simp [PathGenerator.partitionLoop] at hb
  | cons e es ih =>
    intro copy b hb
    unfold PathGenerator.partitionLoop at hb
    split at hb
    · exact List.mem_cons_of_mem _ (ih _ b hb)
    · rcases List.mem_cons.1 hb with rfl | hb
      · simp
      · exact List.mem_cons_of_mem _ (ih _ b hb)

theorem time_focusInplace_tinv (hset : ∀ l, MeasurableSet.set (MeasurableSet.init (T := T) l) = l) (prof : Profile)
    {t : PathGenerator T} (h : TInv B t) {ms : List Nat} {r} (hr : t.focusInplace prof ms = .ok r) : TInv B r.1 := by
  unfold PathGenerator.focusInplace at hr
  cases hp : t.partition prof ms with
  | error e => simp [hp, bind, Except.bind] at hr
  | ok x =>
    cases x with
    | error e =>
      simp only [hp, bind, Except.bind, pure, Except.pure, Except.ok.injEq] at hr
      subst hr
      exact h
    | ok new =>
      have hn : ∀ b ∈ new, b ∈ B := by
        unfold PathGenerator.partition at hp
        cases hc : PathGenerator.capacityCheck prof (MeasurableSet.set t.measurable).length ms.length with
        | error e => simp [hc, bind, Except.bind] at hp
        | ok u =>
          simp only [hc, bind, Except.bind, pure, Except.pure] at hp
          split at hp
          · simp only [Except.ok.injEq] at hp
            subst hp
            exact fun b hb => h.set b (partitionLoop_mem _ _ b hb)
          · simp at hp
      cases hu : PathGenerator.updateUnchecked prof t.dependents ms t.depsCounter new with
      | error e => simp [hp, hu, bind, Except.bind] at hr
      | ok v =>
        simp only [hp, hu, bind, Except.bind, pure, Except.pure, Except.ok.injEq] at hr
        subst hr
        refine ⟨?_, h.deps⟩
        simp only [hset]
        exact updateUnchecked_mem prof _ h.deps ms _ new v hn hu

/-! ### The beginning -/

theorem resolve_mem {bit : Nat} {rest : OrderGraph} {look look' : Dependents}
    (hr : ∀ e ∈ rest.flatten, e.1 ∈ B) (hl : ∀ l ∈ look, ∀ b ∈ l, b ∈ B)
    (h : PathGenerator.resolve bit rest look = .ok look') : ∀ l ∈ look', ∀ b ∈ l, b ∈ B := by
  unfold PathGenerator.resolve at h
  split at h
  · simp only [Except.ok.injEq] at h
    subst h
    intro l hl' b hb
    rcases List.mem_or_eq_of_mem_set hl' with h' | rfl
    · exact hl l h' b hb
    · unfold PathGenerator.collectDependents at hb
      simp only [List.mem_flatMap, List.mem_filterMap, Option.ite_none_right_eq_some, Option.some.injEq] at hb
      obtain ⟨layer, hlay, e, he, _, rfl⟩ := hb
      exact hr e (List.mem_flatten.2 ⟨layer, hlay, he⟩)
  · simp at h

theorem resolveFirst_mem {rest : OrderGraph} (hr : ∀ e ∈ rest.flatten, e.1 ∈ B) (es : List (Nat × List Nat)) :
    ∀ (look look' : Dependents), (∀ l ∈ look, ∀ b ∈ l, b ∈ B) →
    PathGenerator.resolveFirst rest es look = .ok look' → ∀ l ∈ look', ∀ b ∈ l, b ∈ B := by
  induction es with
  | nil =>
    intro look look' hl h
    cases h
    exact hl
  | cons e es ih =>
    intro look look' hl h
    unfold PathGenerator.resolveFirst at h
    cases h1 : PathGenerator.resolve e.1 rest look with
    | error x => simp [h1, bind, Except.bind] at h
    | ok look1 =>
      simp only [h1, bind, Except.bind] at h
      exact ih look1 look' (resolve_mem hr hl h1) h

theorem resolveLayer_mem {rest : OrderGraph} (hr : ∀ e ∈ rest.flatten, e.1 ∈ B) (es : List (Nat × List Nat)) :
    ∀ (look : Dependents) (deps : AMap Nat) r, (∀ l ∈ look, ∀ b ∈ l, b ∈ B) →
    PathGenerator.resolveLayer rest es look deps = .ok r → ∀ l ∈ r.1, ∀ b ∈ l, b ∈ B := by
  induction es with
  | nil =>
    intro look deps r hl h
    cases h
    exact hl
  | cons e es ih =>
    intro look deps r hl h
    unfold PathGenerator.resolveLayer at h
    cases h1 : PathGenerator.resolve e.1 rest look with
    | error x => simp [h1, bind, Except.bind] at h
    | ok look1 =>
      simp only [h1, bind, Except.bind] at h
      exact ih look1 _ r (resolve_mem hr hl h1) h

theorem resolveRest_mem (layers : OrderGraph) : (∀ e ∈ layers.flatten, e.1 ∈ B) →
    ∀ (look : Dependents) (deps : AMap Nat) r, (∀ l ∈ look, ∀ b ∈ l, b ∈ B) →
    PathGenerator.resolveRest layers look deps = .ok r → ∀ l ∈ r.1, ∀ b ∈ l, b ∈ B := by
  induction layers with
  | nil =>
    intro _ look deps r hl h
    cases h
    exact hl
  | cons layer rest ih =>
    intro hr look deps r hl h
    have hr' : ∀ e ∈ rest.flatten, e.1 ∈ B := fun e he => hr e (by
      rw [List.flatten_cons]; exact List.mem_append_right _ he)
    unfold PathGenerator.resolveRest at h
    cases h1 : PathGenerator.resolveLayer rest layer look deps with
    | error x => simp [h1, bind, Except.bind] at h
    | ok v =>
      simp only [h1, bind, Except.bind] at h
      exact ih hr' v.1 v.2 r (resolveLayer_mem hr' layer look deps v hl h1) h

theorem fromDependencyGraph_tinv (hset : ∀ l, MeasurableSet.set (MeasurableSet.init (T := T) l) = l)
    (hd : MeasurableSet.set (MeasurableSet.dflt (T := T)) = []) (order : OrderGraph) (n : Nat)
    {t : PathGenerator T}
    (h : PathGenerator.fromDependencyGraph order (dependencyBufferNew n) none = .ok t) :
    TInv (order.flatten.map (·.1)) t := by
  have hbuf : ∀ l ∈ dependencyBufferNew n, ∀ b ∈ l, b ∈ order.flatten.map (·.1) := by
    intro l hl b hb
    unfold dependencyBufferNew at hl
    rw [(List.mem_replicate.1 hl).2] at hb
    simp at hb
  cases order with
  | nil =>
    simp only [PathGenerator.fromDependencyGraph, pure, Except.pure, Except.ok.injEq] at h
    subst h
    exact ⟨by simp [hd], hbuf⟩
  | cons first rest =>
    simp only [PathGenerator.fromDependencyGraph, PathGenerator.applyMapping, bind, Except.bind] at h
    have hr : ∀ e ∈ rest.flatten, e.1 ∈ (first :: rest).flatten.map (·.1) := fun e he =>
      List.mem_map.2 ⟨e, by rw [List.flatten_cons]; exact List.mem_append_right _ he, rfl⟩
    cases h1 : PathGenerator.resolveFirst rest first (dependencyBufferNew n) with
    | error x => simp [h1] at h
    | ok look =>
      simp only [h1] at h
      cases h2 : PathGenerator.resolveRest rest look [] with
      | error x => simp [h2] at h
      | ok v =>
        simp only [h2, pure, Except.pure, Except.ok.injEq] at h
        subst h
        refine ⟨?_, resolveRest_mem rest hr look [] v (resolveFirst_mem hr first _ look hbuf h1) h2⟩
        simp only [hset]
        intro b hb
        obtain ⟨e, he, rfl⟩ := List.mem_map.1 hb
        exact List.mem_map.2 ⟨e, by rw [List.flatten_cons]; exact List.mem_append_left _ he, rfl⟩

end time

/-! ### Schedulers -/

section sched

variable {L : List (List Nat)} {B : List Nat}

/-- Clip the neighbour lists inside of a scheduler. -/
def clipS {T : Type} (n : Nat) (s : Scheduler T) : Scheduler T := ⟨s.time, clipG n s.space⟩

structure SInv {T : Type} [MeasurableSet T] (L : List (List Nat)) (B : List Nat) (s : Scheduler T) : Prop where
  time : TInv B s.time
  space : GInv L s.space

theorem nextAndFocus_rel (prof : Profile) {s : Scheduler Partitioner} (h : SInv L B s) :
    Rel (∃ b ∈ B, ¬ GoodBit L b)
      (fun r => SInv L B r.1 ∧ ∀ v, r.2 = some v → SInv L B v.1 ∧ ∀ b ∈ v.2, GoodBit L b)
      (fun r => (clipS L.length r.1, r.2.map fun v => (clipS L.length v.1, v.2)))
      (s.nextAndFocus prof) ((clipS L.length s).nextAndFocus prof) := by
  unfold Scheduler.nextAndFocus
  refine Rel.bind (Rel.same (I := fun r => TInv B r.1 ∧ ∀ v, r.2 = some v → TInv B v.1 ∧ ∀ b ∈ v.2, b ∈ B)
    fun r hr => time_nextAndFocus_tinv prof h.time hr) fun r hr => ?_
  obtain ⟨time', r⟩ := r
  cases r with
  | none => exact Rel.pure rfl ⟨⟨hr.1, h.space⟩, by simp⟩
  | some v =>
    obtain ⟨newTime, mess⟩ := v
    obtain ⟨h1, h2⟩ := hr.2 _ rfl
    refine Rel.bind (focusSpace_rel prof h.space h2) fun g' hg => ?_
    refine Rel.pure rfl ⟨⟨hr.1, h.space⟩, ?_⟩
    rintro v ⟨⟩
    exact ⟨⟨h1, hg.1⟩, hg.2⟩

theorem sched_focusInplace_rel (prof : Profile) {s : Scheduler (List Nat)} (h : SInv L B s) {ms : List Nat}
    (hms : ∀ b ∈ ms, b ∈ B) :
    Rel (∃ b ∈ B, ¬ GoodBit L b)
      (fun r => SInv L B r.1 ∧ (r.2 = .ok () → ∀ b ∈ ms, GoodBit L b)) (fun r => (clipS L.length r.1, r.2))
      (s.focusInplace prof ms) ((clipS L.length s).focusInplace prof ms) := by
  unfold Scheduler.focusInplace
  refine Rel.bind (Rel.same (I := fun r => TInv B r.1) fun r hr =>
    time_focusInplace_tinv (fun _ => rfl) prof h.time hr) fun r hr => ?_
  obtain ⟨time', r⟩ := r
  cases r with
  | error e => exact Rel.pure rfl ⟨⟨hr, h.space⟩, by simp⟩
  | ok u =>
    cases prof with
    | debug =>
      refine Rel.bind (focusInplace_rel .debug h.space hms) fun v hv => ?_
      obtain ⟨space, r⟩ := v
      cases r with
      | error e => exact Rel.pure rfl ⟨⟨hr, hv.1⟩, by simp⟩
      | ok u => exact Rel.pure rfl ⟨⟨hr, hv.1⟩, fun _ => hv.2 rfl⟩
    | release =>
      refine Rel.bind (focusUnchecked_rel .release h.space hms) fun g' hg => ?_
      exact Rel.pure rfl ⟨⟨hr, hg.1⟩, fun _ => hg.2⟩

theorem timeOptimalLoop_rel (prof : Profile) (fuel : Nat) : ∀ (s : Scheduler (List Nat)) (path : Steps) (m : Nat),
    SInv L B s → (∀ b ∈ path.flatten, GoodBit L b) →
    Rel (∃ b ∈ B, ¬ GoodBit L b) (fun r => ∀ v, r = some v → ∀ b ∈ v.1.flatten, GoodBit L b) id
      (timeOptimalLoop prof fuel s path m) (timeOptimalLoop prof fuel (clipS L.length s) path m) := by
  induction fuel with
  | zero => intro s path m _ _; exact Rel.pure rfl (by simp)
  | succ fuel ih =>
    intro s path m h hp
    unfold timeOptimalLoop
    by_cases he : s.time.measurable.isEmpty = true
    · rw [if_pos he, if_pos (show (clipS L.length s).time.measurable.isEmpty = true from he)]
      refine Rel.pure rfl ?_
      rintro v ⟨⟩
      exact hp
    · rw [if_neg he, if_neg (show ¬ (clipS L.length s).time.measurable.isEmpty = true from he)]
      refine Rel.bind (sched_focusInplace_rel prof h (ms := s.time.measurable) h.time.set) fun r hr => ?_
      obtain ⟨s', r⟩ := r
      cases r with
      | error e => exact Rel.error _
      | ok u =>
        refine ih s' _ _ hr.1 ?_
        intro b hb
        rw [List.flatten_append, List.mem_append] at hb
        rcases hb with hb | hb
        · exact hp b hb
        · exact hr.2 rfl b (by simpa using hb)

theorem getTimeOptimal_rel (prof : Profile) (fuel : Nat) (L : List (List Nat)) (order : OrderGraph) :
    Rel (∃ b ∈ order.flatten.map (·.1), ¬ GoodBit L b)
      (fun r => ∀ out, r = some out → ∀ p ∈ out, ∀ b ∈ p.steps.flatten, GoodBit L b) id
      (getTimeOptimal prof fuel L order) (getTimeOptimal prof fuel (clipLists L) order) := by
  unfold getTimeOptimal
  have hl : (clipLists L).length = L.length := by simp [clipLists]
  rw [hl]
  refine Rel.bind (Rel.same (I := TInv (order.flatten.map (·.1))) fun t ht =>
    fromDependencyGraph_tinv (fun _ => rfl) rfl order _ ht) fun t ht => ?_
  have hloop := timeOptimalLoop_rel (L := L) (B := order.flatten.map (·.1)) prof fuel ⟨t, Graph.new L⟩ [] 0
    ⟨ht, new_ginv L⟩ (by simp)
  rw [clipS, clipG_new] at hloop
  refine Rel.bind hloop fun r hr => ?_
  cases r with
  | none => exact Rel.pure rfl (by simp)
  | some v =>
    refine Rel.pure rfl ?_
    rintro out ⟨⟩ p hp b hb
    simp only [List.mem_singleton] at hp
    subst hp
    exact hr v rfl b hb

end sched

/-! ### Sweeps -/

section loc

variable {L : List (List Nat)} {B : List Nat}

/-- The steps in a table of results measure good qubits only. -/
def ResGood (L : List (List Nat)) (m : MappedPaths) : Prop := ∀ e ∈ m, ∀ b ∈ e.2.2.flatten, GoodBit L b

theorem ResGood.erase {m : MappedPaths} (h : ResGood L m) (k : Nat) : ResGood L (AMap.erase m k) := by
  induction m with
  | nil => exact h
  | cons e m ih =>
    obtain ⟨k', v⟩ := e
    have h' : ResGood L m := fun e he => h e (List.mem_cons_of_mem _ he)
    unfold AMap.erase
    split
    · exact ih h'
    · intro e he
      rcases List.mem_cons.1 he with rfl | he
      · exact h _ (by simp)
      · exact ih h' e he

theorem ResGood.insert {m : MappedPaths} (h : ResGood L m) (k : Nat) {v : Nat × Steps}
    (hv : ∀ b ∈ v.2.flatten, GoodBit L b) : ResGood L (AMap.insert m k v) := by
  intro e he
  rcases List.mem_cons.1 he with rfl | he
  · exact hv
  · exact h.erase k e he

def clipSweep (n : Nat) (s : Sweep (Scheduler Partitioner)) : Sweep (Scheduler Partitioner) :=
  ⟨clipS n s.current, s.stack.map (clipS n)⟩

def clipLoc (n : Nat) (l : Loc) : Loc := { l with sweep := clipSweep n l.sweep }

structure WInv (L : List (List Nat)) (B : List Nat) (s : Sweep (Scheduler Partitioner)) : Prop where
  current : SInv L B s.current
  stack : ∀ x ∈ s.stack, SInv L B x

structure LInv (L : List (List Nat)) (B : List Nat) (l : Loc) : Prop where
  sweep : WInv L B l.sweep
  path : ∀ b ∈ l.path.flatten, GoodBit L b
  results : ResGood L l.results

theorem sweepNext_rel (prof : Profile) {s : Sweep (Scheduler Partitioner)} (h : WInv L B s) :
    Rel (∃ b ∈ B, ¬ GoodBit L b)
      (fun r => WInv L B r.1 ∧ ∀ m, r.2 = some (.forward m) → ∀ b ∈ m, GoodBit L b)
      (fun r => (clipSweep L.length r.1, r.2))
      (s.next (Scheduler.focusIter prof)) ((clipSweep L.length s).next (Scheduler.focusIter prof)) := by
  unfold Sweep.next
  refine Rel.bind (nextAndFocus_rel prof h.current) fun r hr => ?_
  obtain ⟨cur, r⟩ := r
  cases r with
  | some v =>
    obtain ⟨new, mess⟩ := v
    obtain ⟨h1, h2⟩ := hr.2 _ rfl
    refine Rel.pure rfl ⟨⟨h1, ?_⟩, ?_⟩
    · intro x hx
      rcases List.mem_cons.1 hx with rfl | hx
      · exact hr.1
      · exact h.stack x hx
    · rintro m ⟨⟩
      exact h2
  | none =>
    obtain ⟨c, stack⟩ := s
    cases stack with
    | nil => exact Rel.pure rfl ⟨⟨hr.1, by simp⟩, by simp⟩
    | cons top rest =>
      refine Rel.pure rfl ⟨⟨h.stack top (by simp), fun x hx => h.stack x (by simp [hx])⟩, by simp⟩

theorem skipCurrent_inv {s : Sweep (Scheduler Partitioner)} (h : WInv L B s) : WInv L B s.skipCurrent.1 := by
  obtain ⟨c, stack⟩ := s
  cases stack with
  | nil => exact h
  | cons top rest => exact ⟨h.stack top (by simp), fun x hx => h.stack x (by simp [Sweep.skipCurrent] at hx; simp [hx])⟩

theorem skipCurrent_clip (n : Nat) (s : Sweep (Scheduler Partitioner)) :
    (clipSweep n s).skipCurrent = (clipSweep n s.skipCurrent.1, s.skipCurrent.2) := by
  obtain ⟨c, stack⟩ := s
  cases stack <;> rfl

theorem append_good {path : Steps} {m : List Nat} (h : ∀ b ∈ path.flatten, GoodBit L b) (hm : ∀ b ∈ m, GoodBit L b) :
    ∀ b ∈ (path ++ [m]).flatten, GoodBit L b := by
  intro b hb
  rw [List.flatten_append, List.mem_append] at hb
  rcases hb with hb | hb
  · exact h b hb
  · exact hm b (by simpa using hb)

theorem dropLast_good {path : Steps} (h : ∀ b ∈ path.flatten, GoodBit L b) :
    ∀ b ∈ path.dropLast.flatten, GoodBit L b := by
  intro b hb
  obtain ⟨l, hl, hbl⟩ := List.mem_flatten.1 hb
  exact h b (List.mem_flatten.2 ⟨l, (List.dropLast_sublist _).mem hl, hbl⟩)

theorem forward_rel {bad : Prop} {l : Loc} (h : LInv L B l) {m : List Nat} (hm : ∀ b ∈ m, GoodBit L b) :
    Rel bad (fun r => LInv L B r.1) (fun r => (clipLoc L.length r.1, r.2)) (forward m l)
      (forward m (clipLoc L.length l)) := by
  unfold forward
  refine Rel.bind (Rel.same (I := fun _ => True) fun _ _ => trivial) fun bound _ => ?_
  simp only [id]
  by_cases hc : l.sweep.current.space.maxMemory ≥ bound
  · rw [if_pos hc, if_pos (show (clipLoc L.length l).sweep.current.space.maxMemory ≥ bound from hc)]
    have h1 := skipCurrent_inv h.sweep
    have h2 := skipCurrent_clip L.length l.sweep
    change Rel bad _ _ _ (match (clipSweep L.length l.sweep).skipCurrent with
      | (sw, .error _) => pure ({ clipLoc L.length l with sweep := sw }, true)
      | (sw, .ok ()) => pure ({ clipLoc L.length l with sweep := sw }, false))
    rw [h2]
    rcases hs : l.sweep.skipCurrent with ⟨sw, r⟩
    rw [hs] at h1
    cases r with
    | error e => exact Rel.pure rfl ⟨h1, h.path, h.results⟩
    | ok u => exact Rel.pure rfl ⟨h1, h.path, h.results⟩
  · rw [if_neg hc, if_neg (show ¬ (clipLoc L.length l).sweep.current.space.maxMemory ≥ bound from hc)]
    exact Rel.pure rfl ⟨h.sweep, append_good h.path hm, h.results⟩

theorem backward_rel {bad : Prop} {l : Loc} (h : LInv L B l) (leaf : Option Nat) :
    Rel bad (LInv L B) (clipLoc L.length) (backward leaf l) (backward leaf (clipLoc L.length l)) := by
  cases leaf with
  | none => exact Rel.pure rfl ⟨h.sweep, dropLast_good h.path, h.results⟩
  | some mem =>
    unfold backward
    by_cases hc : l.path.length < l.best.length
    · simp only
      rw [if_pos hc, if_pos (show (clipLoc L.length l).path.length < (clipLoc L.length l).best.length from hc)]
      exact Rel.pure rfl ⟨h.sweep, dropLast_good h.path, h.results.insert _ h.path⟩
    · simp only
      rw [if_neg hc, if_neg (show ¬ (clipLoc L.length l).path.length < (clipLoc L.length l).best.length from hc)]
      exact Rel.error _

theorem searchIter_rel (prof : Profile) {l : Loc} (h : LInv L B l) :
    Rel (∃ b ∈ B, ¬ GoodBit L b) (fun r => LInv L B r.1) (fun r => (clipLoc L.length r.1, r.2)) (searchIter prof l)
      (searchIter prof (clipLoc L.length l)) := by
  unfold searchIter
  refine Rel.bind (sweepNext_rel prof h.sweep) fun r hr => ?_
  obtain ⟨sw, step⟩ := r
  have hl : LInv L B { l with sweep := sw } := ⟨hr.1, h.path, h.results⟩
  rcases step with - | ⟨m | leaf⟩
  · exact Rel.pure rfl hl
  · exact forward_rel hl (hr.2 m rfl)
  · refine Rel.bind (backward_rel hl leaf) fun l' hl' => ?_
    exact Rel.pure rfl hl'

variable {F σ : Type} [FloatOps F]

theorem probabilisticForward_rel {bad : Prop} (accept : Accept F) (gen : Rng F σ) {l : Loc} (h : LInv L B l)
    {m : List Nat} (hm : ∀ b ∈ m, GoodBit L b) (lc lm : Nat) (rng : σ) :
    Rel bad (fun r => LInv L B r.1) (fun r => (clipLoc L.length r.1, r.2))
      (probabilisticForward accept gen m lc lm l rng)
      (probabilisticForward accept gen m lc lm (clipLoc L.length l) rng) := by
  unfold probabilisticForward
  refine Rel.bind (Rel.same (I := fun _ => True) fun _ _ => trivial) fun bound _ => ?_
  simp only [id]
  have hlen : (clipLoc L.length l).sweep.current.space.nodes.length = l.sweep.current.space.nodes.length := by
    simp [clipLoc, clipSweep, clipS, clipG]
  have hcur : (clipLoc L.length l).sweep.current.space.currentMemory = l.sweep.current.space.currentMemory := rfl
  have htime : (clipLoc L.length l).sweep.current.time = l.sweep.current.time := rfl
  have hmax : (clipLoc L.length l).sweep.current.space.maxMemory = l.sweep.current.space.maxMemory := rfl
  have hbest : (clipLoc L.length l).best = l.best := rfl
  have hskip : Rel bad (fun r : Loc × Except EmptyStack Unit => LInv L B r.1)
      (fun r => (clipLoc L.length r.1, r.2))
      (pure ({ l with sweep := l.sweep.skipCurrent.1 }, l.sweep.skipCurrent.2))
      (pure ({ clipLoc L.length l with sweep := (clipSweep L.length l.sweep).skipCurrent.1 },
        (clipSweep L.length l.sweep).skipCurrent.2)) :=
    Rel.pure (by rw [skipCurrent_clip]; rfl) ⟨skipCurrent_inv h.sweep, h.path, h.results⟩
  have hcl : (clipLoc L.length l).sweep = clipSweep L.length l.sweep := rfl
  rw [hlen, hcur, htime, hmax, hbest]
  by_cases hc : l.sweep.current.space.maxMemory ≥ bound
  · rw [if_pos hc, if_pos hc]
    have h1 := skipCurrent_inv h.sweep
    rw [hcl, skipCurrent_clip]
    rcases hs : l.sweep.skipCurrent with ⟨sw, r⟩
    rw [hs] at h1
    cases r with
    | error e => exact Rel.pure rfl ⟨h1, h.path, h.results⟩
    | ok u => exact Rel.pure rfl ⟨h1, h.path, h.results⟩
  · rw [if_neg hc, if_neg hc]
    cases l.best.getLast? with
    | none => exact Rel.error _
    | some minimal =>
      simp only
      split
      · exact Rel.pure rfl ⟨h.sweep, append_good h.path hm, h.results⟩
      · split
        · exact Rel.pure rfl ⟨h.sweep, append_good h.path hm, h.results⟩
        · have h1 := skipCurrent_inv h.sweep
          rw [hcl, skipCurrent_clip]
          rcases hs : l.sweep.skipCurrent with ⟨sw, r⟩
          rw [hs] at h1
          cases r with
          | error e => exact Rel.pure rfl ⟨h1, h.path, h.results⟩
          | ok u => exact Rel.pure rfl ⟨h1, h.path, h.results⟩

theorem probIter_rel (prof : Profile) (accept : Accept F) (gen : Rng F σ) {l : Loc} (h : LInv L B l) (rng : σ) :
    Rel (∃ b ∈ B, ¬ GoodBit L b) (fun r => LInv L B r.1) (fun r => (clipLoc L.length r.1, r.2))
      (probIter prof accept gen l rng) (probIter prof accept gen (clipLoc L.length l) rng) := by
  unfold probIter
  refine Rel.bind (sweepNext_rel prof h.sweep) fun r hr => ?_
  obtain ⟨sw, step⟩ := r
  have hl : LInv L B { l with sweep := sw } := ⟨hr.1, h.path, h.results⟩
  rcases step with - | ⟨m | leaf⟩
  · exact Rel.pure rfl hl
  · exact probabilisticForward_rel accept gen hl (hr.2 m rfl) _ _ rng
  · refine Rel.bind (backward_rel hl leaf) fun l' hl' => ?_
    exact Rel.pure rfl hl'

theorem modeIter_rel (mode : Mode F σ) (prof : Profile) {l : Loc} (h : LInv L B l) (rng : σ) :
    Rel (∃ b ∈ B, ¬ GoodBit L b) (fun r => LInv L B r.1) (fun r => (clipLoc L.length r.1, r.2))
      (modeIter mode prof l rng) (modeIter mode prof (clipLoc L.length l) rng) := by
  cases mode with
  | det =>
    refine Rel.bind (searchIter_rel prof h) fun r hr => ?_
    exact Rel.pure rfl hr
  | prob accept gen => exact probIter_rel prof accept gen h rng

theorem searchLoop_rel (prof : Profile) (timer : Nat → Bool) (fuel : Nat) : ∀ (k : Nat) (l : Loc), LInv L B l →
    Rel (∃ b ∈ B, ¬ GoodBit L b) (fun r => ∀ v, r = some v → LInv L B v) (Option.map (clipLoc L.length))
      (searchLoop prof timer fuel k l) (searchLoop prof timer fuel k (clipLoc L.length l)) := by
  induction fuel with
  | zero => intro k l _; exact Rel.pure rfl (by simp)
  | succ fuel ih =>
    intro k l h
    unfold searchLoop
    refine Rel.bind (searchIter_rel prof h) fun r hr => ?_
    obtain ⟨l', stop⟩ := r
    cases stop with
    | true => exact Rel.pure rfl (by rintro v ⟨⟩; exact hr)
    | false =>
      simp only [Bool.false_eq_true, if_false]
      split
      · exact Rel.pure rfl (by rintro v ⟨⟩; exact hr)
      · exact ih (k + 1) l' hr

theorem probLoop_rel (prof : Profile) (accept : Accept F) (gen : Rng F σ) (timer : Nat → Bool) (fuel : Nat) :
    ∀ (k : Nat) (l : Loc) (rng : σ), LInv L B l →
    Rel (∃ b ∈ B, ¬ GoodBit L b) (fun r => ∀ v, r = some v → LInv L B v.1)
      (Option.map fun v => (clipLoc L.length v.1, v.2))
      (probLoop prof accept gen timer fuel k l rng)
      (probLoop prof accept gen timer fuel k (clipLoc L.length l) rng) := by
  induction fuel with
  | zero => intro k l rng _; exact Rel.pure rfl (by simp)
  | succ fuel ih =>
    intro k l rng h
    unfold probLoop
    refine Rel.bind (probIter_rel prof accept gen h rng) fun r hr => ?_
    obtain ⟨l', rng', stop⟩ := r
    cases stop with
    | true => exact Rel.pure rfl (by rintro v ⟨⟩; exact hr)
    | false =>
      simp only [Bool.false_eq_true, if_false]
      split
      · exact Rel.pure rfl (by rintro v ⟨⟩; exact hr)
      · exact ih (k + 1) l' rng' hr

/-! ### The end of a search -/

theorem filterLoop_good {results : MappedPaths} (hr : ResGood L results) (is : List Nat) :
    ∀ (best : List Nat) (filtered out : MappedPaths), ResGood L filtered →
    filterLoop results is best filtered = .ok out → ResGood L out := by
  induction is with
  | nil =>
    intro best filtered out hf h
    cases h
    exact hf
  | cons i is ih =>
    intro best filtered out hf h
    unfold filterLoop at h
    split at h
    · exact ih _ _ _ hf h
    · rename_i mem steps hget
      cases hi : idx best i with
      | error e => simp [hi, bind, Except.bind] at h
      | ok m =>
        simp only [hi, bind, Except.bind] at h
        split at h
        · exact ih _ _ _ (hf.insert i fun b hb => hr _ (AMap.mem_of_get hget) b hb) h
        · exact ih _ _ _ hf h

theorem mem_insertByTime {p q : Path} {l : List Path} : q ∈ insertByTime p l → q = p ∨ q ∈ l := by
  induction l with
  | nil => intro h; simp [insertByTime] at h; exact Or.inl h
  | cons x l ih =>
    intro h
    unfold insertByTime at h
    split at h
    · simpa using h
    · rcases List.mem_cons.1 h with rfl | h
      · simp
      · rcases ih h with h | h
        · exact Or.inl h
        · exact Or.inr (by simp [h])

theorem mem_sortByTime {q : Path} {l : List Path} : q ∈ sortByTime l → q ∈ l := by
  induction l with
  | nil => intro h; simp [sortByTime] at h
  | cons x l ih =>
    intro h
    rcases mem_insertByTime h with rfl | h
    · simp
    · simp [ih h]

theorem postprocess_good {hashIter : MappedPaths → MappedPaths} {n : Nat} {results : MappedPaths}
    (hr : ResGood L results) {out : List Path} (h : postprocess hashIter n results = .ok out)
    (hh : ∀ m, (hashIter m).Perm m) : ∀ p ∈ out, ∀ b ∈ p.steps.flatten, GoodBit L b := by
  unfold postprocess at h
  cases hf : filterLoop results (List.range (n + 1)) (List.replicate (n + 1) usizeMax) [] with
  | error e => simp [hf, bind, Except.bind] at h
  | ok filtered =>
    simp only [hf, bind, Except.bind, pure, Except.pure, Except.ok.injEq] at h
    subst h
    intro p hp b hb
    obtain ⟨e, he, rfl⟩ := List.mem_map.1 (mem_sortByTime hp)
    exact filterLoop_good hr _ _ _ _ (by intro e he; simp at he) hf e ((hh filtered).mem_iff.1 he) b hb

theorem post_rel {bad : Prop} (hashIter : MappedPaths → MappedPaths) (n : Nat) {results : MappedPaths}
    (hr : ResGood L results) :
    Rel bad (fun r => (∀ m, (hashIter m).Perm m) → ∀ out, r = some out →
      ∀ p ∈ out, ∀ b ∈ p.steps.flatten, GoodBit L b) id
      (do let out ← postprocess hashIter n results; pure (some out))
      (do let out ← postprocess hashIter n results; pure (some out)) := by
  refine Rel.bind (Rel.same (I := fun out => (∀ m, (hashIter m).Perm m) → ∀ p ∈ out, ∀ b ∈ p.steps.flatten,
    GoodBit L b) fun out h hh => postprocess_good hr h hh) fun out ho => ?_
  refine Rel.pure rfl ?_
  rintro hh _ ⟨⟩
  exact ho hh

theorem mkScheduler_rel {bad : Prop} (L : List (List Nat)) (order : OrderGraph) :
    Rel bad (SInv L (order.flatten.map (·.1))) (clipS L.length) (mkScheduler L order)
      (mkScheduler (clipLists L) order) := by
  unfold mkScheduler
  have hl : (clipLists L).length = L.length := by simp [clipLists]
  rw [hl]
  refine Rel.bind (Rel.same (I := TInv (order.flatten.map (·.1))) fun t ht =>
    fromDependencyGraph_tinv (fun _ => rfl) rfl order _ ht) fun t ht => ?_
  exact Rel.pure (by rw [clipS, clipG_new]; rfl) ⟨ht, new_ginv L⟩

theorem init_linv {s : Scheduler Partitioner} (h : SInv L B s) (n : Nat) : LInv L B (Loc.init s n) :=
  ⟨⟨h, by simp [Loc.init, Sweep.new]⟩, by simp [Loc.init], by intro e he; simp [Loc.init] at he⟩

theorem searchDet_rel (prof : Profile) (hashIter : MappedPaths → MappedPaths) (timer : Nat → Bool) (fuel : Nat)
    (L : List (List Nat)) (order : OrderGraph) :
    Rel (∃ b ∈ order.flatten.map (·.1), ¬ GoodBit L b)
      (fun r => (∀ m, (hashIter m).Perm m) → ∀ out, r = some out →
        ∀ p ∈ out, ∀ b ∈ p.steps.flatten, GoodBit L b) id
      (searchDet prof hashIter timer fuel L order) (searchDet prof hashIter timer fuel (clipLists L) order) := by
  unfold searchDet
  have hl : (clipLists L).length = L.length := by simp [clipLists]
  rw [hl]
  refine Rel.bind (mkScheduler_rel L order) fun s hs => ?_
  refine Rel.bind (searchLoop_rel prof timer fuel 0 _ (init_linv hs L.length)) fun r hr => ?_
  cases r with
  | none => exact Rel.pure rfl (by simp)
  | some l => exact post_rel hashIter L.length (hr l rfl).results

theorem searchProb_rel (prof : Profile) (hashIter : MappedPaths → MappedPaths) (accept : Accept F) (gen : Rng F σ)
    (rng : σ) (timer : Nat → Bool) (fuel : Nat) (L : List (List Nat)) (order : OrderGraph) :
    Rel (∃ b ∈ order.flatten.map (·.1), ¬ GoodBit L b)
      (fun r => (∀ m, (hashIter m).Perm m) → ∀ out, r = some out →
        ∀ p ∈ out, ∀ b ∈ p.steps.flatten, GoodBit L b) id
      (searchProb prof hashIter accept gen rng timer fuel L order)
      (searchProb prof hashIter accept gen rng timer fuel (clipLists L) order) := by
  unfold searchProb
  have hl : (clipLists L).length = L.length := by simp [clipLists]
  rw [hl]
  refine Rel.bind (mkScheduler_rel L order) fun s hs => ?_
  refine Rel.bind (probLoop_rel prof accept gen timer fuel 0 _ rng (init_linv hs L.length)) fun r hr => ?_
  cases r with
  | none => exact Rel.pure rfl (by simp)
  | some l => exact post_rel hashIter L.length (hr l rfl).results

end loc

/-! ### Threads -/

section threads

variable {L : List (List Nat)} {B : List Nat} {F σ : Type} [FloatOps F]

def clipTask (n : Nat) : TaskState σ → TaskState σ
  | .ready s init rng => .ready (clipS n s) init rng
  | .running l rng counter wasInit => .running (clipLoc n l) rng counter wasInit
  | .finishing l => .finishing (clipLoc n l)
  | .done => .done

def KInv (L : List (List Nat)) (B : List Nat) : TaskState σ → Prop
  | .ready s init _ => SInv L B s ∧ ∀ m, init = some m → ∀ b ∈ m, GoodBit L b
  | .running l _ _ _ => LInv L B l
  | .finishing l => LInv L B l
  | .done => True

def clipGlobal (n : Nat) (g : Global σ) : Global σ := { g with tasks := g.tasks.map (clipTask n) }

structure PInvClip (L : List (List Nat)) (B : List Nat) (g : Global σ) : Prop where
  tasks : ∀ t ∈ g.tasks, KInv L B t
  results : ResGood L g.results

theorem PInvClip.set {g : Global σ} (h : PInvClip L B g) (i : Nat) {t : TaskState σ} (ht : KInv L B t) :
    ∀ x ∈ g.tasks.set i t, KInv L B x := by
  intro x hx
  rcases List.mem_or_eq_of_mem_set hx with hx | rfl
  · exact h.tasks x hx
  · exact ht

theorem mergeLoop_good (ss : List Nat) : ∀ (time : Nat) (ts : List Nat) (new results : MappedPaths),
    ResGood L new → ResGood L results → ResGood L (mergeLoop time ss ts new results).2 := by
  induction ss with
  | nil => intro time ts new results _ h; simpa [mergeLoop] using h
  | cons s ss ih =>
    intro time ts new results hn h
    cases ts with
    | nil => simpa [mergeLoop] using h
    | cons t ts =>
      unfold mergeLoop
      split
      · split
        · rename_i r hget
          exact ih _ _ _ _ (hn.erase _) (h.insert _ fun b hb => hn _ (AMap.mem_of_get hget) b hb)
        · exact ih _ _ _ _ hn h
      · exact ih _ _ _ _ hn h

theorem finishLoop_rel {bad : Prop} {l : Loc} (h : LInv L B l) (counter : Nat) (wasInit : Bool) :
    Rel bad (LInv L B) (clipLoc L.length) (finishLoop l counter wasInit)
      (finishLoop (clipLoc L.length l) counter wasInit) := by
  unfold finishLoop
  split
  · exact backward_rel h _
  · exact Rel.pure rfl h

theorem startLoc_linv {s : Scheduler Partitioner} {init : Option (List Nat)} (h : SInv L B s)
    (hi : ∀ m, init = some m → ∀ b ∈ m, GoodBit L b) (best : List Nat) : LInv L B (startLoc s init best) := by
  refine ⟨⟨h, by simp [startLoc, Sweep.new]⟩, ?_, by intro e he; simp [startLoc] at he⟩
  cases init with
  | none => simp [startLoc]
  | some m => simpa [startLoc] using hi m rfl

theorem move_rel (mode : Mode F σ) (prof : Profile) {g : Global σ} (h : PInvClip L B g) (i : Nat) (bit : Bool) :
    Rel (∃ b ∈ B, ¬ GoodBit L b) (PInvClip L B) (clipGlobal L.length) (move mode prof g i bit)
      (move mode prof (clipGlobal L.length g) i bit) := by
  unfold move
  have hget : (clipGlobal L.length g).tasks[i]? = g.tasks[i]?.map (clipTask L.length) := by simp [clipGlobal]
  rw [hget]
  cases ht : g.tasks[i]? with
  | none => exact Rel.pure rfl h
  | some t =>
    have hk := h.tasks t (List.mem_of_getElem? ht)
    cases t with
    | ready s init rng =>
      refine Rel.pure ?_ ⟨h.set i (startLoc_linv hk.1 hk.2 g.best), h.results⟩
      simp only [clipGlobal, List.map_set]
      rfl
    | running l rng counter wasInit =>
      refine Rel.bind (modeIter_rel mode prof hk rng) fun r hr => ?_
      obtain ⟨l', rng', stop⟩ := r
      cases stop with
      | true =>
        refine Rel.bind (finishLoop_rel hr counter wasInit) fun l'' hl => ?_
        refine Rel.pure ?_ ⟨h.set i hl, h.results⟩
        simp only [clipGlobal, List.map_set]
        rfl
      | false =>
        simp only [Bool.false_eq_true, if_false]
        have hex : LInv L B { l' with best := (exchange g.best l'.best).2 } := ⟨hr.sweep, hr.path, hr.results⟩
        split
        · split
          · refine Rel.pure ?_ ⟨h.set i hex, h.results⟩
            simp only [clipGlobal, List.map_set]
            rfl
          · refine Rel.pure ?_ ⟨h.set i hex, h.results⟩
            simp only [clipGlobal, List.map_set]
            rfl
        · refine Rel.pure ?_ ⟨h.set i hr, h.results⟩
          simp only [clipGlobal, List.map_set]
          rfl
    | finishing l =>
      simp only [Option.map_some, clipTask]
      by_cases he : l.results.isEmpty = true
      · rw [if_pos he, if_pos (show (clipLoc L.length l).results.isEmpty = true from he)]
        refine Rel.pure ?_ ⟨h.set i trivial, h.results⟩
        simp only [clipGlobal, List.map_set]
        rfl
      · rw [if_neg he, if_neg (show ¬ (clipLoc L.length l).results.isEmpty = true from he)]
        refine Rel.pure ?_ ⟨h.set i trivial, mergeLoop_good _ _ _ _ _ hk.results h.results⟩
        simp only [clipGlobal, List.map_set]
        rfl
    | done => exact Rel.pure rfl h

theorem runMoves_rel (mode : Mode F σ) (prof : Profile) (ms : List (Nat × Bool)) : ∀ (g : Global σ),
    PInvClip L B g →
    Rel (∃ b ∈ B, ¬ GoodBit L b) (PInvClip L B) (clipGlobal L.length) (runMoves mode prof g ms)
      (runMoves mode prof (clipGlobal L.length g) ms) := by
  induction ms with
  | nil => intro g h; exact Rel.pure rfl h
  | cons m ms ih =>
    intro g h
    unfold runMoves
    exact Rel.bind (move_rel mode prof h m.1 m.2) fun g' hg => ih g' hg

theorem spawnLoop_rel (prof : Profile) (taskBound : Int) (fuel : Nat) : ∀ (s : Scheduler Partitioner) (k : Int),
    SInv L B s →
    Rel (∃ b ∈ B, ¬ GoodBit L b)
      (fun r => (∀ t ∈ r.1, SInv L B t.1 ∧ ∀ b ∈ t.2, GoodBit L b) ∧ SInv L B r.2)
      (fun r => (r.1.map fun t => (clipS L.length t.1, t.2), clipS L.length r.2))
      (spawnLoop prof taskBound fuel s k) (spawnLoop prof taskBound fuel (clipS L.length s) k) := by
  induction fuel with
  | zero => intro s k h; exact Rel.pure rfl ⟨by simp, h⟩
  | succ fuel ih =>
    intro s k h
    unfold spawnLoop
    refine Rel.bind (nextAndFocus_rel prof h) fun r hr => ?_
    obtain ⟨s', r⟩ := r
    cases r with
    | none => exact Rel.pure rfl ⟨by simp, hr.1⟩
    | some v =>
      obtain ⟨focused, measure⟩ := v
      obtain ⟨h1, h2⟩ := hr.2 _ rfl
      simp only [Option.map_some]
      split
      · refine Rel.pure rfl ⟨?_, hr.1⟩
        intro t ht
        simp only [List.mem_singleton] at ht
        subst ht
        exact ⟨h1, h2⟩
      · refine Rel.bind (ih s' (k + 1) hr.1) fun w hw => ?_
        refine Rel.pure rfl ⟨?_, hw.2⟩
        intro t ht
        rcases List.mem_cons.1 ht with rfl | ht
        · exact ⟨h1, h2⟩
        · exact hw.1 t ht

theorem initGlobal_rel (prof : Profile) (taskBound : Int) (seeds : Nat → σ) {s : Scheduler Partitioner}
    (h : SInv L B s) (n : Nat) :
    Rel (∃ b ∈ B, ¬ GoodBit L b) (PInvClip L B) (clipGlobal L.length) (initGlobal prof taskBound seeds s n)
      (initGlobal prof taskBound seeds (clipS L.length s) n) := by
  unfold initGlobal spawn
  simp only [bind_assoc, pure_bind]
  refine Rel.bind (spawnLoop_rel prof taskBound _ s 0 h) fun r hr => ?_
  refine Rel.pure ?_ ⟨?_, by intro e he; simp at he⟩
  · have hm : ∀ l : List (Scheduler Partitioner × List Nat),
        List.mapIdx (fun k (t : Scheduler Partitioner × List Nat) => TaskState.ready t.1 (some t.2) (seeds k))
          (l.map fun t => (clipS L.length t.1, t.2)) =
        (List.mapIdx (fun k t => TaskState.ready t.1 (some t.2) (seeds k)) l).map (clipTask L.length) := by
      intro l
      apply List.ext_getElem?
      intro i
      simp only [List.getElem?_mapIdx, List.getElem?_map, Option.map_map]
      rfl
    simp [clipGlobal, clipTask, hm]
  · intro t ht
    rcases List.mem_append.1 ht with ht | ht
    · obtain ⟨k, hk, rfl⟩ := List.mem_mapIdx.1 ht
      have := hr.1 _ (List.getElem_mem hk)
      exact ⟨this.1, by rintro m ⟨⟩; exact this.2⟩
    · simp only [List.mem_singleton] at ht
      subst ht
      exact ⟨hr.2, by simp⟩

theorem finished_clip (n : Nat) (g : Global σ) : (clipGlobal n g).finished = g.finished := by
  unfold Global.finished clipGlobal
  rw [List.all_map]
  congr 1
  funext t
  cases t <;> rfl

theorem searchThreaded_rel (mode : Mode F σ) (prof : Profile) (hashIter : MappedPaths → MappedPaths)
    (taskBound : Int) (seeds : Nat → σ) (moves : List (Nat × Bool)) (L : List (List Nat)) (order : OrderGraph) :
    Rel (∃ b ∈ order.flatten.map (·.1), ¬ GoodBit L b)
      (fun r => (∀ m, (hashIter m).Perm m) → ∀ out, r = some out →
        ∀ p ∈ out, ∀ b ∈ p.steps.flatten, GoodBit L b) id
      (searchThreaded mode prof hashIter taskBound seeds moves L order)
      (searchThreaded mode prof hashIter taskBound seeds moves (clipLists L) order) := by
  unfold searchThreaded
  have hl : (clipLists L).length = L.length := by simp [clipLists]
  rw [hl]
  refine Rel.bind (mkScheduler_rel L order) fun s hs => ?_
  refine Rel.bind (initGlobal_rel prof taskBound seeds hs L.length) fun g hg => ?_
  refine Rel.bind (runMoves_rel mode prof moves g hg) fun g' hg' => ?_
  rw [finished_clip]
  split
  · exact post_rel hashIter L.length hg'.results
  · exact Rel.pure rfl (by simp)

/-- `run` on a graph with entries out of range in the neighbour lists, for all inputs. -/
theorem run_clip (env : Env F σ) (L : List (List Nat)) (order : OrderGraph) (args : Args F) :
    Rel (∃ b ∈ order.flatten.map (·.1), ¬ GoodBit L b)
      (fun r => env.OK → ∀ out, r = some out → ∀ p ∈ out, ∀ b ∈ p.steps.flatten, GoodBit L b) id
      (run env L order args) (run env (clipLists L) order args) := by
  unfold run
  split
  · exact (getTimeOptimal_rel env.prof env.fuel L order).mono fun _ h _ => h
  · unfold search
    simp only
    split
    · split
      · exact searchProb_rel _ _ _ _ _ _ _ L order
      · exact searchDet_rel _ _ _ _ L order
    · split
      · exact searchThreaded_rel _ _ _ _ _ _ L order
      · exact searchThreaded_rel _ _ _ _ _ _ L order

end threads

end Verif.Clip
