import Verif.Proofs.LogRun
import Verif.Proofs.Tried
import Verif.Proofs.Terminate
/-!
# Which task of the pool finds what

A task only meets schedules that begin with one of its own first steps (`A`).
-/

namespace Verif
namespace Own

open Spec Search Search.Threaded Log

/-- The results begin with a step in `A`. -/
def OwnR (A : List Nat → Prop) (r : MappedPaths) : Prop :=
  ∀ t u S, r.get t = some (u, S) → ∃ h, S.head? = some h ∧ A h

/-- The search only meets schedules that begin with a step in `A`. -/
structure OwnL (A : List Nat → Prop) (l : Loc) : Prop where
  head : ∀ h, l.path.head? = some h → A h
  bot : ∀ lv ∈ levels l.path l.sweep.current l.sweep.stack, lv.1 = [] → ∀ x ∈ rem lv.2, x.2 ≠ [] → A x.2
  res : OwnR A l.results

theorem ownR_insert {A : List Nat → Prop} {r : MappedPaths} (h : OwnR A r) {t u : Nat} {S : Steps}
    (hS : ∃ h, S.head? = some h ∧ A h) : OwnR A (r.insert t (u, S)) := by
  intro t' u' S' h'
  rw [AMap.get_insert] at h'
  split at h'
  · simp only [Option.some.injEq, Prod.mk.injEq] at h'
    rw [← h'.2]
    exact hS
  · exact h t' u' S' h'

theorem levels_replace {p : Schedule} {c c' : Scheduler Partitioner} {st : List (Scheduler Partitioner)}
    {lv : Schedule × Scheduler Partitioner} (h : lv ∈ levels p c' st) : lv = (p, c') ∨ lv ∈ levels p c st := by
  cases st with
  | nil => simpa [levels] using Or.inl (by simpa [levels] using h)
  | cons t r =>
    simp only [levels, List.mem_cons] at h ⊢
    rcases h with h | h
    · exact Or.inl h
    · exact Or.inr (Or.inr h)

theorem levels_top (p : Schedule) (c : Scheduler Partitioner) (st : List (Scheduler Partitioner)) :
    (p, c) ∈ levels p c st := by
  cases st <;> simp [levels]

theorem head_dropLast {p : Schedule} {h : List Nat} (hh : p.dropLast.head? = some h) : p.head? = some h := by
  cases p with
  | nil => simp at hh
  | cons a p =>
    cases p with
    | nil => simp at hh
    | cons b p => simpa using hh

/-- One iteration. -/
theorem iter {P : Problem} {Det : Prop} {p0 : Schedule} {l l' : Loc} {stop : Bool} {A : List Nat → Prop}
    (h : IterStep P Det l l' stop) (hl : LocOK P p0 l) (ho : OwnL A l) : OwnL A l' := by
  cases h with
  | @stop s' hst hn hs hi =>
    refine ⟨ho.head, ?_, ho.res⟩
    intro lv hlv _ x hx
    simp only [levels, List.mem_singleton] at hlv
    subst hlv
    simp [rem, hn.done] at hx
  | @backLeaf s' top rest hst hn hleaf hlen =>
    have h1 := hl.chain
    rw [hst] at h1
    have hne : l.path ≠ [] := by
      generalize l.path = p at h1
      cases h1
      simp
    refine ⟨fun a ha => ho.head a (head_dropLast ha), ?_, ownR_insert ho.res ?_⟩
    · intro lv hlv
      refine ho.bot lv ?_
      rw [hst, levels]
      exact List.mem_cons_of_mem _ hlv
    · cases hp : l.path with
      | nil => exact (hne hp).elim
      | cons a p => exact ⟨a, rfl, ho.head a (by rw [hp]; rfl)⟩
  | @backInner s' top rest hst hn hleaf =>
    refine ⟨fun a ha => ho.head a (head_dropLast ha), ?_, ho.res⟩
    intro lv hlv
    refine ho.bot lv ?_
    rw [hst, levels]
    exact List.mem_cons_of_mem _ hlv
  | @skip s' c k m bound hn hb hd =>
    refine ⟨ho.head, ?_, ho.res⟩
    intro lv hlv h0 x hx hx0
    rcases levels_replace (c := l.sweep.current) hlv with rfl | h1
    · exact ho.bot _ (levels_top _ _ _) h0 x (by simp only at hx ⊢; rw [hn.rem]; exact List.mem_cons_of_mem _ hx) hx0
    · exact ho.bot lv h1 h0 x hx hx0
  | @push s' c k m bound hn hb hlt =>
    refine ⟨?_, ?_, ho.res⟩
    · intro a ha
      cases hp : l.path with
      | nil =>
        simp only [hp, List.nil_append, List.head?_cons, Option.some.injEq] at ha
        subst ha
        exact ho.bot _ (levels_top _ _ _) hp (k, m) (by simp only; rw [hn.rem]; simp) hn.ne
      | cons b p =>
        refine ho.head a ?_
        simpa [hp] using ha
    · intro lv hlv h0 x hx hx0
      simp only [levels, List.dropLast_concat, List.mem_cons] at hlv
      rcases hlv with rfl | hlv
      · simp at h0
      · rcases levels_replace (c := l.sweep.current) hlv with rfl | h1
        · exact ho.bot _ (levels_top _ _ _) h0 x (by simp only at hx ⊢; rw [hn.rem]; exact List.mem_cons_of_mem _ hx) hx0
        · exact ho.bot lv h1 h0 x hx hx0

/-- A task. -/
def OwnT (A : List Nat → Prop) {σ : Type} : TaskState σ → Prop
  | .ready sched init _ => (∀ m, init = some m → A m) ∧ (init = none → ∀ x ∈ rem sched, x.2 ≠ [] → A x.2)
  | .running loc _ _ _ => OwnL A loc
  | .finishing loc => OwnR A loc.results
  | .done => True

/-- The pool and the lines so far. -/
structure OwnG (A : Nat → List Nat → Prop) {σ : Type} (g : Global σ) (acc : List DoneLine) : Prop where
  tasks : ∀ i x, g.tasks[i]? = some x → OwnT (A i) x
  log : ∀ d ∈ acc, ∃ i, i < g.tasks.length ∧ d.ntasks = label g.tasks.length i ∧ OwnR (A i) d.results

theorem set {A : Nat → List Nat → Prop} {σ : Type} {g : Global σ} {acc ls : List DoneLine} (h : OwnG A g acc) {i : Nat}
    (hi : i < g.tasks.length) {b : TaskState σ} (hb : OwnT (A i) b)
    (hls : ∀ d ∈ ls, d.ntasks = label g.tasks.length i ∧ OwnR (A i) d.results) (best : List Nat) (results : MappedPaths) :
    OwnG A (⟨best, results, g.tasks.set i b⟩ : Global σ) (acc ++ ls) := by
  refine ⟨?_, ?_⟩
  · intro j x hx
    by_cases hij : i = j
    · subst hij
      rw [List.getElem?_set_self hi] at hx
      cases hx
      exact hb
    · rw [List.getElem?_set_ne hij] at hx
      exact h.tasks j x hx
  · intro d hd
    simp only [List.length_set]
    rcases List.mem_append.1 hd with h1 | h1
    · exact h.log d h1
    · exact ⟨i, hi, hls d h1⟩

theorem move_own {F σ : Type} [FloatOps F] (mode : Mode F σ) {P : Problem} (hP : P.WF) (hb : P.bits ≠ [])
    {A : Nat → List Nat → Prop} {g g' : Global σ} {acc : List DoneLine} (hg : GlobalOK P g) (ho : OwnG A g acc)
    {i : Nat} {tb : Bool} {prof : Profile} (hm : move mode prof g i tb = .ok g') :
    OwnG A g' (acc ++ doneLine g.tasks.length i g.tasks[i]? g'.tasks[i]?) := by
  rw [move.eq_def] at hm
  cases ht : g.tasks[i]? with
  | none =>
    rw [ht] at hm
    cases hm
    simpa [doneLine] using ho
  | some t =>
    have hi := (List.getElem?_eq_some_iff.1 ht).1
    have hok := hg.tasks t (List.mem_of_getElem? ht)
    have hot := ho.tasks i t ht
    rw [ht] at hm
    cases t with
    | ready sched init rng =>
      cases hm
      simp only [doneLine]
      refine set ho hi ?_ (by simp) _ _
      obtain ⟨h1, h2⟩ := hot
      refine ⟨?_, ?_, ?_⟩
      · intro a ha
        cases init with
        | none => simp [startLoc] at ha
        | some m =>
          simp only [startLoc, List.head?_cons, Option.some.injEq] at ha
          exact ha ▸ h1 m rfl
      · intro lv hlv h0 x hx hx0
        cases init with
        | none =>
          simp only [startLoc, Sweep.new, levels, List.mem_singleton] at hlv
          subst hlv
          exact h2 rfl x hx hx0
        | some m =>
          simp only [startLoc, Sweep.new, levels, List.mem_singleton] at hlv
          subst hlv
          simp at h0
      · intro t u S h; simp [startLoc] at h
    | running loc rng counter wasInit =>
      cases hok with
      | running p0 hl hr hc =>
      obtain ⟨l', rng', stop, e1, e2⟩ := modeIter_spec mode rng hP.lax hl
      have i1 := iter e2 hl hot
      simp only [e1 prof, bind, Except.bind] at hm
      cases stop with
      | true =>
        obtain ⟨_, hcase⟩ := finishLoop_spec hP.lax e2 hl hr hc
        rcases hcase with ⟨_, hfin⟩ | ⟨_, _, hv, hpath, _, _, _, hfin⟩
        · simp only [if_true, hfin] at hm
          cases hm
          simp only [doneLine, List.getElem?_set_self hi]
          exact set ho hi (b := .finishing _) i1.res (fun d hd => by rw [List.mem_singleton.1 hd]; exact ⟨rfl, i1.res⟩) _ _
        · simp only [if_true, hfin] at hm
          cases hm
          simp only [doneLine, List.getElem?_set_self hi]
          have h1 : OwnR (A i) (loc.results.insert p0.length (P.peak p0, p0)) := by
            refine ownR_insert hot.res ?_
            cases hp : p0 with
            | nil => exact (not_valid_nil hb ((maximal_iff hP).1 (hp ▸ hv))).elim
            | cons a p => exact ⟨a, rfl, i1.head a (by rw [hpath, hp]; rfl)⟩
          refine set ho hi ?_ ?_ _ _
          · exact h1
          · intro d hd
            rw [List.mem_singleton.1 hd]
            exact ⟨rfl, h1⟩
      | false =>
        rw [if_neg (by simp)] at hm
        by_cases hcu : counter = updateInterval
        · rw [if_pos hcu] at hm
          cases tb with
          | true =>
            rw [if_pos rfl] at hm
            cases hm
            simp only [doneLine, List.getElem?_set_self hi]
            refine set ho hi ?_ ?_ _ _
            · exact i1.res
            · intro d hd
              rw [List.mem_singleton.1 hd]
              exact ⟨rfl, i1.res⟩
          | false =>
            rw [if_neg (by simp)] at hm
            cases hm
            simp only [doneLine, List.getElem?_set_self hi]
            refine set ho hi (ls := []) ?_ (by simp) _ _
            exact ⟨i1.head, i1.bot, i1.res⟩
        · rw [if_neg hcu] at hm
          cases hm
          simp only [doneLine, List.getElem?_set_self hi]
          exact set ho hi (b := .running _ _ _ _) i1 (by simp) _ _
    | finishing loc =>
      simp only at hm
      split at hm <;> cases hm <;> simp only [doneLine] <;> exact set ho hi (b := .done) trivial (by simp) _ _
    | done =>
      cases hm
      simpa [doneLine, ht] using ho

theorem logMoves_own {F σ : Type} [FloatOps F] (mode : Mode F σ) {P : Problem} (hP : P.WF) (hb : P.bits ≠ [])
    {A : Nat → List Nat → Prop} {prof : Profile} :
    ∀ (ms : List (Nat × Bool)) (g g' : Global σ) (acc l : List DoneLine), GlobalOK P g → OwnG A g acc →
    logMoves mode prof g ms = .ok (g', l) → OwnG A g' (acc ++ l) := by
  intro ms
  induction ms with
  | nil =>
    intro g g' acc l _ hg h
    simp only [logMoves, pure, Except.pure, Except.ok.injEq, Prod.mk.injEq] at h
    obtain ⟨rfl, rfl⟩ := h
    simpa using hg
  | cons m ms ih =>
    intro g g' acc l hok hg h
    simp only [logMoves, bind, Except.bind] at h
    obtain ⟨g1, e1, e2, _⟩ := move_spec mode hP.lax hok m.1 m.2
    simp only [e1 prof] at h
    cases hr : logMoves mode prof g1 ms with
    | error e => simp [hr] at h
    | ok r =>
      obtain ⟨g2, l2⟩ := r
      simp only [hr, pure, Except.pure, Except.ok.injEq, Prod.mk.injEq] at h
      obtain ⟨rfl, rfl⟩ := h
      have b1 := ih g1 g2 _ l2 e2 (move_own mode hP hb hok hg (e1 prof)) hr
      rwa [List.append_assoc] at b1

/-- The first steps of the tasks: `F` of those with a number, `rest` of the last one. -/
structure Firsts (P : Problem) (tb : Int) (F rest : List (List Nat)) : Prop where
  sub : ∀ m, m ∈ F ++ rest ↔ m ≠ [] ∧ m.Sublist P.start
  order : (F ++ rest).Pairwise (Sooner P.start)
  nodup : P.start.Nodup
  le : 0 < tb → (F.length : Int) ≤ tb
  eq : rest = [] ∨ (F.length : Int) = tb
  all : (tb ≤ 0 ∨ ((2 ^ P.start.length : Nat) : Int) < tb) → rest = []

theorem Firsts.diff {P : Problem} {tb : Int} {F rest : List (List Nat)} (h : Firsts P tb F rest) :
    (F ++ rest).Pairwise fun a b => ¬ a.Perm b := by
  refine List.Pairwise.imp_of_mem ?_ h.order
  intro a b ha hb hab hp
  have := sublist_eq_of_perm _ a b h.nodup ((h.sub a).1 ha).2 ((h.sub b).1 hb).2 hp
  subst this
  exact Spec.Sooner.irrefl hab

/-- Something is left over only if the bound is reached. -/
theorem spawnLoop_rest {P : Problem} (hP : Lax P) (tb : Int) {prof : Profile} :
    ∀ (fuel : Nat) (s : Scheduler Partitioner) (k : Int), StateFor P [] s → IterOK s →
    s.time.measurable.iter.length < fuel → ∀ ts rest, spawnLoop prof tb fuel s k = .ok (ts, rest) →
    rest.time.measurable.iter = [] ∨ (ts.length : Int) = tb - k := by
  intro fuel
  induction fuel with
  | zero => intro s k _ _ h; omega
  | succ fuel ih =>
    intro s k hs hi hf ts rest h
    rcases nextAndFocus_spec hP hs hi with ⟨s', hn, hs', hi'⟩ | ⟨s', c, l, m, hn⟩
    · simp only [spawnLoop, hn.eq prof, bind, Except.bind, pure, Except.pure, Except.ok.injEq, Prod.mk.injEq] at h
      obtain ⟨rfl, rfl⟩ := h
      exact Or.inl hn.done
    · simp only [spawnLoop, hn.eq prof, bind, Except.bind, pure, Except.pure] at h
      have hlen := hn.len
      by_cases hb : k + 1 = tb
      · rw [if_pos hb] at h
        simp only [Except.ok.injEq, Prod.mk.injEq] at h
        obtain ⟨rfl, rfl⟩ := h
        right
        simp only [List.length_singleton]
        omega
      · rw [if_neg hb] at h
        cases he : spawnLoop prof tb fuel s' (k + 1) with
        | error e => rw [he] at h; cases h
        | ok x =>
          obtain ⟨ts', rest'⟩ := x
          rw [he] at h
          simp only [Except.ok.injEq, Prod.mk.injEq] at h
          obtain ⟨rfl, rfl⟩ := h
          rcases ih s' (k + 1) hn.state' hn.iter' (by omega) ts' rest' he with h1 | h1
          · exact Or.inl h1
          · right
            simp only [List.length_cons]
            omega

/-- The steps task `i` may begin with. -/
def allowed (F rest : List (List Nat)) (i : Nat) (m : List Nat) : Prop := F[i]? = some m ∨ F.length ≤ i ∧ m ∈ rest

/-- The pool right after spawning. -/
theorem initGlobal_own {P : Problem} (hP : P.WF) (tb : Int) {s : Scheduler Partitioner} (hs : StateFor P [] s)
    (hf : Fresh s) (hL : Listed P [] s) : ∃ F rest, Firsts P tb F rest ∧ ∀ {σ : Type} (seeds : Nat → σ) {prof : Profile} {g : Global σ},
      initGlobal prof tb seeds s P.n = .ok g → OwnG (allowed F rest) g [] ∧ g.tasks.length = F.length + 1 ∧
      g.tasks.mapIdx (startLine g.tasks.length) = F.mapIdx (fun i m => ⟨(i : Int), some m⟩) ++ [⟨-1, none⟩] := by
  obtain ⟨ts, rest, f1, f2, f3, f4, f5, ⟨tail, f6, f7⟩, f8, _, f10⟩ :=
    spawnLoop_spec hP.lax tb (s.time.measurable.iter.length + 1) s 0 hs hf.iterOK (by omega)
  have hset : s.time.measurable.set = P.start := hL.set
  have hnd : P.start.Nodup := hset ▸ hs.time.set_nodup
  have hrem : rem s = items P.start := by rw [hf.rem, hset]
  rw [hrem] at f6
  have hR : ((rem rest).map (·.2)).filter (· ≠ []) = tail.filter (· ≠ []) := by
    rcases f7 with h | ⟨h, h'⟩
    · rw [← h]
    · rw [h, List.map_nil, List.filter_nil]
      refine (List.filter_eq_nil_iff.2 ?_).symm
      intro m hm
      simpa using h' m hm
  have hF : (ts.map (·.2)).filter (· ≠ []) = ts.map (·.2) := by
    refine List.filter_eq_self.2 ?_
    intro m hm
    obtain ⟨t, ht, rfl⟩ := List.mem_map.1 hm
    simpa using (f4 t ht).2.2
  have hall : ts.map (·.2) ++ ((rem rest).map (·.2)).filter (· ≠ []) = ((items P.start).map (·.2)).filter (· ≠ []) := by
    rw [f6, List.filter_append, hF, hR]
  refine ⟨ts.map (·.2), ((rem rest).map (·.2)).filter (· ≠ []), ⟨?_, ?_, hnd, ?_, ?_, ?_⟩, ?_⟩
  · intro m
    rw [hall]
    simp only [List.mem_filter, List.mem_map, decide_eq_true_eq, ne_eq]
    constructor
    · rintro ⟨⟨x, hx, rfl⟩, h⟩
      exact ⟨h, (mem_items (l := x.1) (r := x.2) hx).2.2⟩
    · rintro ⟨h, hm⟩
      obtain ⟨l, hl⟩ := exists_items_of_sublist hm
      exact ⟨⟨_, hl, rfl⟩, h⟩
  · rw [hall]
    refine List.Pairwise.sublist List.filter_sublist ?_
    rw [List.pairwise_map]
    exact items_pairwise hnd
  · intro h
    have := f8 h
    simp only [List.length_map]
    omega
  · rcases spawnLoop_rest (prof := .debug) hP.lax tb _ s 0 hs hf.iterOK (by omega) ts rest (f1 .debug) with h | h
    · left; simp [rem, h]
    · right; simp only [List.length_map]; omega
  · intro htb
    have hlen : s.time.measurable.iter.length = 2 ^ P.start.length := by
      rw [hf, length_powerset, hset]
    have h0 : rest.time.measurable.iter = [] := by
      apply f10
      omega
    simp [rem, h0]
  · intro σ seeds prof g hg
    simp only [initGlobal, spawn, f1 prof, bind, Except.bind, pure, Except.pure, Except.ok.injEq] at hg
    subst hg
    refine ⟨⟨?_, by simp⟩, by simp, ?_⟩
    · intro i x hx
      simp only [List.getElem?_append, List.length_mapIdx, List.getElem?_mapIdx] at hx
      split at hx
      · rename_i hi
        rw [List.getElem?_eq_getElem hi] at hx
        simp only [Option.map_some, Option.some.injEq] at hx
        subst hx
        refine ⟨?_, by simp⟩
        rintro m h
        left
        simp only [Option.some.injEq] at h
        simp [List.getElem?_eq_getElem hi, h]
      · rename_i hi
        have hx' := List.mem_of_getElem? hx
        rw [List.mem_singleton] at hx'
        subst hx'
        refine ⟨by simp, ?_⟩
        intro _ y hy hy0
        right
        refine ⟨by simpa using hi, ?_⟩
        simp only [List.mem_filter, List.mem_map, decide_eq_true_eq, ne_eq]
        exact ⟨⟨y, hy, rfl⟩, hy0⟩
    · simp only [List.mapIdx_append, List.length_append, List.length_mapIdx, List.length_singleton]
      congr 1
      · refine List.ext_getElem (by simp) fun i h1 h2 => ?_
        simp only [List.length_mapIdx] at h1
        simp only [List.getElem_mapIdx, startLine, List.getElem_map]
        rw [if_neg (by omega)]
      · simp [startLine]

end Own
end Verif
