import Verif.Props.SweepProps
import Verif.Props.Example
/-!
# Sweeping through any tree

`Sweep` works for every type that implements `FocusIterator` (tree.rs:31-45), not only for the schedulers. Here nothing is
assumed about the type except that what its method offers is finite.
-/

namespace Verif

open Spec Search Example

/-- What a state of a `FocusIterator` offers: either nothing (any more), with the value of `at_leaf`, or a child `item` with
what the child offers, and then the rest. -/
inductive SearchTree (Item Leaf : Type) where
  | done (leaf : Option Leaf)
  | child (item : Item) (sub rest : SearchTree Item Leaf)
  deriving DecidableEq

/-- The calls of `next_and_focus` on the state `t` lead to this tree. After `None` the method keeps returning `None` (like a
fused iterator). -/
inductive Unfolds {T Item Leaf : Type} (fi : FocusIter T Item Leaf) : T → SearchTree Item Leaf → Prop
  | done {t t' : T} (h : fi.nextAndFocus t = .ok (t', none)) (h' : fi.nextAndFocus t' = .ok (t', none)) :
      Unfolds fi t (.done (fi.atLeaf t'))
  | child {t t' c : T} {i : Item} {sub rest : SearchTree Item Leaf} (h : fi.nextAndFocus t = .ok (t', some (c, i)))
      (hc : Unfolds fi c sub) (hr : Unfolds fi t' rest) : Unfolds fi t (.child i sub rest)

namespace SearchTree

variable {Item Leaf : Type}

/-- The value of `at_leaf` when everything has been offered. -/
def leaf : SearchTree Item Leaf → Option Leaf
  | done l => l
  | child _ _ rest => rest.leaf

/-- Depth first: into every child, then everything below it, then back. -/
def events : SearchTree Item Leaf → List (Step Item (Option Leaf))
  | done _ => []
  | child i sub rest => .forward i :: (sub.events ++ .backward sub.leaf :: rest.events)

/-- The paths to all leaves below, with their values, in this order. -/
def leaves (p : List Item) : SearchTree Item Leaf → List (List Item × Leaf)
  | done _ => []
  | child i sub rest =>
    sub.leaves (p ++ [i]) ++ (match sub.leaf with | some l => [(p ++ [i], l)] | none => []) ++ rest.leaves p

/-- Apply a function to the values at the leaves. -/
def mapLeaf {Leaf' : Type} (f : Leaf → Leaf') : SearchTree Item Leaf → SearchTree Item Leaf'
  | done l => done (l.map f)
  | child i sub rest => child i (sub.mapLeaf f) (rest.mapLeaf f)

end SearchTree

/-- What a caller sees: the result of `next`, and whether `skip_current` succeeded. -/
inductive Seen (Item Leaf : Type) where
  | step (s : Option (Step Item (Option Leaf)))
  | skipped (ok : Bool)
  deriving DecidableEq

section
variable {T Item Leaf : Type}

/-- Perform calls on a sweep: what is seen, and the sweep afterwards. -/
def Sweep.observe (fi : FocusIter T Item Leaf) : List SweepOp → Sweep T → R (List (Seen Item Leaf) × Sweep T)
  | [], sw => pure ([], sw)
  | .next :: ops, sw => do
    let (sw', step) ← sw.next fi
    let r ← Sweep.observe fi ops sw'
    pure (.step step :: r.1, r.2)
  | .skip :: ops, sw =>
    match sw.skipCurrent with
    | (sw', .ok ()) => do
      let r ← Sweep.observe fi ops sw'
      pure (.skipped true :: r.1, r.2)
    | (sw', .error _) => do
      let r ← Sweep.observe fi ops sw'
      pure (.skipped false :: r.1, r.2)

/-- The same calls on a position in a tree: what is still to be seen below the current node, and below the nodes above. -/
def SearchTree.observe : List SweepOp → SearchTree Item Leaf → List (SearchTree Item Leaf) → List (Seen Item Leaf)
  | [], _, _ => []
  | .next :: ops, .child i sub rest, up => .step (some (.forward i)) :: SearchTree.observe ops sub (rest :: up)
  | .next :: ops, .done l, t :: up => .step (some (.backward l)) :: SearchTree.observe ops t up
  | .next :: ops, .done l, [] => .step none :: SearchTree.observe ops (.done l) []
  | .skip :: ops, _, t :: up => .skipped true :: SearchTree.observe ops t up
  | .skip :: ops, t, [] => .skipped false :: SearchTree.observe ops t []

variable {fi : FocusIter T Item Leaf}

theorem observe_unfolds (ops : List SweepOp) : ∀ (t : T) (st : List T) (tree : SearchTree Item Leaf) (up : List (SearchTree Item Leaf)),
    Unfolds fi t tree → List.Forall₂ (Unfolds fi) st up →
    ∃ sw, Sweep.observe fi ops ⟨t, st⟩ = .ok (SearchTree.observe ops tree up, sw) := by
  induction ops with
  | nil => intro t st tree up _ _; exact ⟨_, by cases tree <;> rfl⟩
  | cons op ops ih =>
    intro t st tree up ht hst
    cases op with
    | next =>
      cases ht with
      | @done _ t' h h' =>
        cases hst with
        | nil =>
          obtain ⟨sw, e⟩ := ih t' [] _ [] (.done h' h') .nil
          refine ⟨sw, ?_⟩
          simp [Sweep.observe, Sweep.next, h, bind, Except.bind, pure, Except.pure, e, SearchTree.observe]
        | @cons a b as bs h1 h2 =>
          obtain ⟨sw, e⟩ := ih a as b bs h1 h2
          refine ⟨sw, ?_⟩
          simp [Sweep.observe, Sweep.next, h, bind, Except.bind, pure, Except.pure, e, SearchTree.observe]
      | @child _ t' c i sub rest h hc hr =>
        obtain ⟨sw, e⟩ := ih c (t' :: st) sub (rest :: up) hc (.cons hr hst)
        refine ⟨sw, ?_⟩
        simp [Sweep.observe, Sweep.next, h, bind, Except.bind, pure, Except.pure, e, SearchTree.observe]
    | skip =>
      cases hst with
      | nil =>
        obtain ⟨sw, e⟩ := ih t [] tree [] ht .nil
        refine ⟨sw, ?_⟩
        simp [Sweep.observe, Sweep.skipCurrent, bind, Except.bind, pure, Except.pure, e, SearchTree.observe]
      | @cons a b as bs h1 h2 =>
        obtain ⟨sw, e⟩ := ih a as b bs h1 h2
        refine ⟨sw, ?_⟩
        simp [Sweep.observe, Sweep.skipCurrent, bind, Except.bind, pure, Except.pure, e, SearchTree.observe]

/-- **C83** A sweep over any type that implements `FocusIterator` is a position in the tree that the type describes: whatever
sequence of `next` and `skip_current` is called, a caller sees exactly what moving in that tree shows. -/
theorem C83_refines {t : T} {tree : SearchTree Item Leaf} (h : Unfolds fi t tree) (ops : List SweepOp) :
    ∃ sw, Sweep.observe fi ops (Sweep.new t) = .ok (tree.observe ops [], sw) :=
  observe_unfolds ops t [] tree [] h .nil

theorem observe_events (tree : SearchTree Item Leaf) : ∀ (ops : List SweepOp) (up : List (SearchTree Item Leaf)),
    SearchTree.observe (List.replicate tree.events.length .next ++ ops) tree up =
      tree.events.map (fun e => .step (some e)) ++ SearchTree.observe ops (.done tree.leaf) up := by
  induction tree with
  | done l => intro ops up; simp [SearchTree.events, SearchTree.leaf]
  | child i sub rest ih1 ih2 =>
    intro ops up
    have hl : (SearchTree.child i sub rest).events.length = (sub.events.length + (rest.events.length + 1)) + 1 := by
      simp [SearchTree.events]
    rw [hl, List.replicate_succ, List.cons_append, SearchTree.observe, ← List.replicate_append_replicate, List.append_assoc, ih1,
      List.replicate_succ, List.cons_append, SearchTree.observe, ih2]
    simp [SearchTree.events, SearchTree.leaf]

theorem observe_done (l : Option Leaf) (k : Nat) :
    SearchTree.observe (Item := Item) (List.replicate k .next) (.done l) [] = List.replicate k (.step none) := by
  induction k with
  | zero => rfl
  | succ k ih => simp only [List.replicate_succ, SearchTree.observe, ih]

/-- **C83** Iterating visits the tree depth first: every child is entered in the order in which it is offered, everything below
it is visited, then it is left with the value of `at_leaf`; every node is entered and left exactly once. Afterwards the
iterator returns `None` forever. -/
theorem C83_depth_first {t : T} {tree : SearchTree Item Leaf} (h : Unfolds fi t tree) (k : Nat) :
    ∃ sw, Sweep.observe fi (List.replicate (tree.events.length + k) .next) (Sweep.new t) =
      .ok (tree.events.map (fun e => .step (some e)) ++ List.replicate k (.step none), sw) := by
  obtain ⟨sw, e⟩ := C83_refines h (List.replicate (tree.events.length + k) .next)
  refine ⟨sw, e.trans ?_⟩
  rw [← List.replicate_append_replicate, observe_events]
  rw [observe_done]

/-- Does this change the depth by `+1`, by `-1` or not at all? -/
def Seen.depth : Seen Item Leaf → Int
  | .step (some (.forward _)) => 1
  | .step (some (.backward _)) => -1
  | .step none => 0
  | .skipped true => -1
  | .skipped false => 0

/-- **C83** For every implementor, finite or not, and whatever is called: the number of stored states is the number of steps
forward minus the number of steps backward and of successful calls of `skip_current`; so there are never more of these. -/
theorem C83_balance (fi : FocusIter T Item Leaf) (ops : List SweepOp) : ∀ (sw sw' : Sweep T) (r : List (Seen Item Leaf)),
    Sweep.observe fi ops sw = .ok (r, sw') →
    (sw'.stack.length : Int) = sw.stack.length + (r.map Seen.depth).sum := by
  induction ops with
  | nil =>
    intro sw sw' r h
    simp only [Sweep.observe, pure, Except.pure, Except.ok.injEq, Prod.mk.injEq] at h
    obtain ⟨rfl, rfl⟩ := h
    simp
  | cons op ops ih =>
    intro sw sw' r h
    cases op with
    | next =>
      simp only [Sweep.observe, bind, Except.bind] at h
      cases hn : sw.next fi with
      | error e => rw [hn] at h; cases h
      | ok x =>
        obtain ⟨sw1, step⟩ := x
        rw [hn] at h
        simp only at h
        cases ho : Sweep.observe fi ops sw1 with
        | error e => rw [ho] at h; cases h
        | ok y =>
          obtain ⟨r1, sw2⟩ := y
          rw [ho] at h
          simp only [pure, Except.pure, Except.ok.injEq, Prod.mk.injEq] at h
          obtain ⟨rfl, rfl⟩ := h
          have hi := ih _ _ _ ho
          rw [hi, List.map_cons, List.sum_cons]
          have : (sw1.stack.length : Int) = sw.stack.length + Seen.depth (.step step) := by
            unfold Sweep.next at hn
            simp only [bind, Except.bind] at hn
            split at hn
            · cases hn
            · rename_i x _
              obtain ⟨t', o⟩ := x
              cases o with
              | some v =>
                simp only [pure, Except.pure, Except.ok.injEq, Prod.mk.injEq] at hn
                obtain ⟨rfl, rfl⟩ := hn
                simp [Seen.depth]
              | none =>
                cases hst : sw.stack with
                | nil =>
                  simp only [hst, pure, Except.pure, Except.ok.injEq, Prod.mk.injEq] at hn
                  obtain ⟨rfl, rfl⟩ := hn
                  simp [Seen.depth]
                | cons a b =>
                  simp only [hst, pure, Except.pure, Except.ok.injEq, Prod.mk.injEq] at hn
                  obtain ⟨rfl, rfl⟩ := hn
                  simp [Seen.depth]
          omega
    | skip =>
      obtain ⟨cur, st⟩ := sw
      cases st with
      | nil =>
        simp only [Sweep.observe, Sweep.skipCurrent, bind, Except.bind] at h
        cases ho : Sweep.observe fi ops ⟨cur, []⟩ with
        | error e => rw [ho] at h; cases h
        | ok y =>
          obtain ⟨r1, sw2⟩ := y
          rw [ho] at h
          simp only [pure, Except.pure, Except.ok.injEq, Prod.mk.injEq] at h
          obtain ⟨rfl, rfl⟩ := h
          have hi := ih _ _ _ ho
          simp only [List.map_cons, List.sum_cons, Seen.depth, List.length_nil] at hi ⊢
          omega
      | cons a st =>
        simp only [Sweep.observe, Sweep.skipCurrent, bind, Except.bind] at h
        cases ho : Sweep.observe fi ops ⟨a, st⟩ with
        | error e => rw [ho] at h; cases h
        | ok y =>
          obtain ⟨r1, sw2⟩ := y
          rw [ho] at h
          simp only [pure, Except.pure, Except.ok.injEq, Prod.mk.injEq] at h
          obtain ⟨rfl, rfl⟩ := h
          have hi := ih _ _ _ ho
          simp only [List.map_cons, List.sum_cons, Seen.depth, List.length_cons] at hi ⊢
          omega

/-- The client loop of the documentation for any implementor: keep the path, collect it with the value at every
`Backward(Some(_))`; after a step forward call `skip_current` if `skip` says so of the path. `fuel` bounds the number of calls
of `next` (`none`: not enough). -/
def Sweep.client (fi : FocusIter T Item Leaf) (skip : List Item → Bool) :
    Nat → Sweep T → List Item → R (Option (List (List Item × Leaf)))
  | 0, _, _ => pure none
  | fuel + 1, sw, p => do
    let (sw', step) ← sw.next fi
    match step with
    | none => pure (some [])
    | some (.forward m) =>
      if skip (p ++ [m]) then
        match sw'.skipCurrent with
        | (sw'', .ok ()) => Sweep.client fi skip fuel sw'' p
        | (_, .error _) => .error .unwrapFailed
      else Sweep.client fi skip fuel sw' (p ++ [m])
    | some (.backward leaf) => do
      let rest ← Sweep.client fi skip fuel sw' p.dropLast
      pure (rest.map fun r => match leaf with
        | some l => (p, l) :: r
        | none => r)

/-- The leaves that are left when the nodes that `skip` names are cut off. -/
def SearchTree.pruned (skip : List Item → Bool) (p : List Item) : SearchTree Item Leaf → List (List Item × Leaf)
  | .done _ => []
  | .child i sub rest =>
    (if skip (p ++ [i]) then []
     else sub.pruned skip (p ++ [i]) ++ (match sub.leaf with | some l => [(p ++ [i], l)] | none => [])) ++ rest.pruned skip p

/-- `q` is reached from `p` only through a node that is skipped, or is one. -/
def Cut (skip : List Item → Bool) (p q : List Item) : Prop :=
  ∃ r, p.length < r.length ∧ r <+: q ∧ skip r = true

theorem leaves_prefix (tree : SearchTree Item Leaf) : ∀ (p : List Item), ∀ x ∈ tree.leaves p, ∃ i, p ++ [i] <+: x.1 := by
  induction tree with
  | done l => intro p x hx; cases hx
  | child i sub rest ih1 ih2 =>
    intro p x hx
    simp only [SearchTree.leaves, List.mem_append] at hx
    rcases hx with (hx | hx) | hx
    · obtain ⟨j, hj⟩ := ih1 _ _ hx
      exact ⟨i, (List.prefix_append _ _).trans hj⟩
    · cases hl : sub.leaf with
      | none => rw [hl] at hx; cases hx
      | some l =>
        rw [hl] at hx
        simp only [List.mem_singleton] at hx
        subst hx
        exact ⟨i, List.prefix_refl _⟩
    · exact ih2 _ _ hx

open Classical in
theorem pruned_eq (skip : List Item → Bool) (tree : SearchTree Item Leaf) : ∀ (p : List Item),
    tree.pruned skip p = (tree.leaves p).filter fun x => decide (¬ Cut skip p x.1) := by
  induction tree with
  | done l => intro p; rfl
  | child i sub rest ih1 ih2 =>
    intro p
    simp only [SearchTree.pruned, SearchTree.leaves, List.filter_append, ih2]
    congr 1
    by_cases hs : skip (p ++ [i]) = true
    · rw [if_pos hs]
      symm
      rw [List.append_eq_nil_iff]
      constructor
      · rw [List.filter_eq_nil_iff]
        intro x hx
        obtain ⟨j, hj⟩ := leaves_prefix _ _ _ hx
        have : Cut skip p x.1 := ⟨p ++ [i], by simp, (List.prefix_append _ _).trans hj, hs⟩
        simp [this]
      · rw [List.filter_eq_nil_iff]
        intro x hx
        cases hl : sub.leaf with
        | none => rw [hl] at hx; cases hx
        | some l =>
          rw [hl] at hx
          simp only [List.mem_singleton] at hx
          subst hx
          have : Cut skip p (p ++ [i]) := ⟨p ++ [i], by simp, List.prefix_refl _, hs⟩
          simp [this]
    · rw [if_neg hs, ih1]
      have key : ∀ x : List Item × Leaf, p ++ [i] <+: x.1 → (Cut skip (p ++ [i]) x.1 ↔ Cut skip p x.1) := by
        intro x hx
        constructor
        · rintro ⟨r, hr, hp, hk⟩
          exact ⟨r, by simp at hr; omega, hp, hk⟩
        · rintro ⟨r, hr, hp, hk⟩
          refine ⟨r, ?_, hp, hk⟩
          rcases Nat.lt_or_ge (p ++ [i]).length r.length with h | h
          · exact h
          · exfalso
            have h1 : r <+: p ++ [i] := List.prefix_of_prefix_length_le hp hx h
            have h2 : r = p ++ [i] := h1.eq_of_length (by simp at h ⊢; omega)
            exact hs (h2 ▸ hk)
      congr 1
      · apply List.filter_congr
        intro x hx
        obtain ⟨j, hj⟩ := leaves_prefix _ _ _ hx
        simp [key x ((List.prefix_append _ _).trans hj)]
      · cases hl : sub.leaf with
        | none => rfl
        | some l =>
          have hc : ¬ Cut skip p (p ++ [i]) := by
            rw [← key (p ++ [i], l) (List.prefix_refl _)]
            rintro ⟨r, hr, hp, _⟩
            exact absurd hp.length_le (Nat.not_le.2 hr)
          simp [hc]

theorem client_unfolds (skip : List Item → Bool) {t : T} {tree : SearchTree Item Leaf} (h : Unfolds fi t tree) :
    ∀ (st : List T) (p : List Item), ∃ k t' t'', fi.nextAndFocus t' = .ok (t'', none) ∧ fi.atLeaf t'' = tree.leaf ∧
      ∀ F, Sweep.client fi skip (F + k) ⟨t, st⟩ p =
        (Sweep.client fi skip F ⟨t', st⟩ p).map (Option.map (tree.pruned skip p ++ ·)) := by
  induction h with
  | @done t t' h h' =>
    intro st p
    refine ⟨0, t, t', h, rfl, fun F => ?_⟩
    cases Sweep.client fi skip F ⟨t, st⟩ p with
    | error e => simp_all [Except.map]
    | ok x => cases x <;> simp_all [Except.map, SearchTree.pruned]
  | @child t t' c i sub rest h hc hr ih1 ih2 =>
    intro st p
    obtain ⟨k2, a, b, hab, hb, e2⟩ := ih2 st p
    by_cases hs : skip (p ++ [i]) = true
    · refine ⟨k2 + 1, a, b, hab, hb, fun F => ?_⟩
      rw [← Nat.add_assoc, Sweep.client]
      simp [Sweep.next, h, bind, Except.bind, pure, Except.pure, hs, Sweep.skipCurrent, e2, SearchTree.pruned]
    · obtain ⟨k1, a1, b1, hab1, hb1, e1⟩ := ih1 (t' :: st) (p ++ [i])
      refine ⟨k2 + 1 + k1 + 1, a, b, hab, hb, fun F => ?_⟩
      rw [← Nat.add_assoc, Sweep.client]
      simp only [Sweep.next, h, bind, Except.bind, pure, Except.pure, hs]
      rw [← Nat.add_assoc, e1, ← Nat.add_assoc, Sweep.client]
      simp only [Sweep.next, hab1, bind, Except.bind, pure, Except.pure, List.dropLast_concat, e2, hb1]
      cases Sweep.client fi skip F ⟨a, st⟩ p with
      | error e => simp [Except.map]
      | ok x => cases x <;> cases hl : sub.leaf <;> simp [Except.map, SearchTree.pruned, hs, hl]

/-- **C83** `skip_current` cuts off exactly what is below the node: the client that skips some nodes collects, in the same
order and with the same values, the leaves that are not one of these nodes and not below one. Without skipping it collects
all leaves. -/
theorem C83_skip {t : T} {tree : SearchTree Item Leaf} (h : Unfolds fi t tree) (skip : List Item → Bool) :
    ∃ k, ∀ fuel, k ≤ fuel → Sweep.client fi skip fuel (Sweep.new t) [] =
      .ok (some ((tree.leaves []).filter fun x => !((x.1.inits.tail).any skip))) := by
  classical
  obtain ⟨k, t', t'', h1, _, e⟩ := client_unfolds skip h [] []
  refine ⟨k + 1, fun fuel hf => ?_⟩
  obtain ⟨F, rfl⟩ : ∃ F, fuel = (F + 1) + k := ⟨fuel - k - 1, by omega⟩
  rw [show Sweep.new t = ⟨t, []⟩ from rfl, e, Sweep.client]
  simp only [Sweep.next, h1, bind, Except.bind, pure, Except.pure, Except.map, Option.map, List.append_nil, pruned_eq]
  congr 2
  apply List.filter_congr
  intro x _
  have : Cut skip [] x.1 ↔ (x.1.inits.tail).any skip = true := by
    rw [List.any_eq_true]
    constructor
    · rintro ⟨r, hr, hp, hk⟩
      refine ⟨r, ?_, hk⟩
      have hm := (List.mem_inits r x.1).2 hp
      cases hx : x.1 with
      | nil => rw [hx] at hp; rw [List.prefix_nil.1 hp] at hr; simp at hr
      | cons y ys =>
        rw [hx] at hm
        rw [List.inits_cons] at hm ⊢
        rcases List.mem_cons.1 hm with e0 | hm
        · rw [e0] at hr; simp at hr
        · exact hm
    · rintro ⟨r, hr, hk⟩
      refine ⟨r, ?_, (List.mem_inits r x.1).1 (List.mem_of_mem_tail hr), hk⟩
      cases hx : x.1 with
      | nil => rw [hx] at hr; simp at hr
      | cons y ys =>
        rw [hx, List.inits_cons, List.tail_cons, List.mem_map] at hr
        obtain ⟨z, _, rfl⟩ := hr
        simp
  by_cases hc : Cut skip [] x.1
  · simp [hc, this.1 hc]
  · have h0 : (x.1.inits.tail).any skip = false := by
      cases hv : (x.1.inits.tail).any skip with
      | true => exact absurd (this.2 hv) hc
      | false => rfl
    simp [hc, h0]

end

theorem fused_of_done {s : Scheduler Partitioner} (h : s.time.measurable.iter = []) (prof : Profile) :
    s.nextAndFocus prof = .ok (s, none) := by
  obtain ⟨⟨⟨set, iter⟩, deps, look⟩, space⟩ := s
  simp only at h
  subst h
  simp [Scheduler.nextAndFocus, PathGenerator.nextAndFocus, Partition.next, bind, Except.bind, pure, Except.pure]

theorem time_none {s s' : Scheduler Partitioner} {prof : Profile} (h : s.nextAndFocus prof = .ok (s', none)) :
    s.time.nextAndFocus prof = .ok (s'.time, none) := by
  unfold Scheduler.nextAndFocus at h
  cases ht : s.time.nextAndFocus prof with
  | error e => rw [ht] at h; cases h
  | ok x =>
    obtain ⟨t', o⟩ := x
    rw [ht] at h
    simp only [bind, Except.bind, pure, Except.pure] at h
    cases o with
    | none =>
      simp only [Except.ok.injEq, Prod.mk.injEq, and_true] at h
      subst h
      rfl
    | some v =>
      simp only at h
      split at h
      · cases h
      · simp at h

theorem time_some {s s' c : Scheduler Partitioner} {m : List Nat} {prof : Profile}
    (h : s.nextAndFocus prof = .ok (s', some (c, m))) :
    s.time.nextAndFocus prof = .ok (s'.time, some (c.time, m)) := by
  unfold Scheduler.nextAndFocus at h
  cases ht : s.time.nextAndFocus prof with
  | error e => rw [ht] at h; cases h
  | ok x =>
    obtain ⟨t', o⟩ := x
    rw [ht] at h
    simp only [bind, Except.bind, pure, Except.pure] at h
    cases o with
    | none => simp at h
    | some v =>
      simp only at h
      split at h
      · cases h
      · simp only [Except.ok.injEq, Prod.mk.injEq, Option.some.injEq] at h
        obtain ⟨rfl, rfl, rfl⟩ := h
        rfl

theorem unfolds_of_below {P : Problem} {skip : Schedule → Bool} (hk : ∀ q, skip q = false) {p : Schedule}
    {s : Scheduler Partitioner} {r : List (Schedule × Nat)} (prof : Profile) (h : Below P skip p s r) :
    ∃ tree, Unfolds (Scheduler.focusIter prof) s tree ∧
      Unfolds (PathGenerator.focusIter prof) s.time (tree.mapLeaf fun _ => ()) ∧ tree.leaves p = r ∧
      tree.leaf = s.atLeaf := by
  induction h with
  | @done p s s' h =>
    have e1 := h.eq prof
    have e2 := fused_of_done h.done prof
    refine ⟨.done s'.atLeaf, .done (fi := Scheduler.focusIter prof) e1 e2, ?_, rfl, h.atLeaf⟩
    have := Unfolds.done (fi := PathGenerator.focusIter prof) (time_none e1) (time_none e2)
    have ha : s'.atLeaf.map (fun _ => ()) = (PathGenerator.focusIter prof).atLeaf s'.time := by
      simp only [Scheduler.atLeaf, PathGenerator.focusIter, PathGenerator.atLeaf]
      split <;> rfl
    rw [SearchTree.mapLeaf, ha]
    exact this
  | skip h hs => rw [hk] at hs; cases hs
  | @child p s s' c l m rc r h hs hc hr ih1 ih2 =>
    obtain ⟨t1, a1, b1, c1, d1⟩ := ih1
    obtain ⟨t2, a2, b2, c2, d2⟩ := ih2
    refine ⟨.child m t1 t2, .child (fi := Scheduler.focusIter prof) (h.eq prof) a1 a2,
      .child (fi := PathGenerator.focusIter prof) (time_some (h.eq prof)) b1 b2, ?_, ?_⟩
    · rw [SearchTree.leaves, c1, c2, d1]
      congr 2
      rw [atLeaf_eq, leafOf]
      by_cases h0 : c.time.measurable.set = [] <;> simp [h0]
    · rw [SearchTree.leaf, d2, atLeaf_eq, atLeaf_eq, h.set, h.space]

/-- **C83** Both implementors of the crate describe a tree, for every well-formed problem: a `Scheduler` and its
`PathGenerator` describe the same one, except that the leaves of the latter carry no value. The leaves of this tree are the
valid schedules, each once (steps compared as sets), with their peak memory. -/
theorem C83_implementors {P : Problem} (hP : P.WF) (hb : P.bits ≠ []) (prof : Profile) : ∃ s tree,
    mkScheduler P.graph P.order = .ok s ∧
    Unfolds (Scheduler.focusIter prof) s tree ∧
    Unfolds (PathGenerator.focusIter prof) s.time (tree.mapLeaf fun _ => ()) ∧
    (∀ e ∈ tree.leaves [], P.Valid e.1 ∧ e.2 = P.peak e.1) ∧
    ((tree.leaves []).Pairwise fun a b => ¬ List.Forall₂ List.Perm a.1 b.1) ∧
    (∀ S, P.Valid S → ∃ e ∈ tree.leaves [], List.Forall₂ List.Perm e.1 S) := by
  obtain ⟨s, r, N, h1, h2, h3, h4, h5⟩ := allPaths_below hP fun _ => false
  obtain ⟨tree, u1, u2, u3, _⟩ := unfolds_of_below (fun _ => rfl) prof h4
  subst u3
  refine ⟨s, tree, h1, u1, u2, ?_⟩
  obtain ⟨out, N', a1, a2⟩ := C19_enumerates hP hb
  have e := ((a1 (max N N') (Nat.le_max_right _ _) prof).1).symm.trans (h5 _ (Nat.le_max_left _ _) prof).1
  simp only [Except.ok.injEq, Option.some.injEq] at e
  subst e
  exact a2

-- the hypotheses hold for the example of the documentation
example : ∃ s tree, mkScheduler docs.graph docs.order = .ok s ∧ Unfolds (Scheduler.focusIter .debug) s tree :=
  let ⟨s, tree, h, u, _⟩ := C83_implementors docs_wf (by decide) .debug
  ⟨s, tree, h, u⟩

/-! ## An implementor outside the crate -/

/-- The state `(n, k)` offers the children `k, k + 1, …, n - 1`; the child `j` offers `0, …, j - 1`. -/
def countdown : FocusIter (Nat × Nat) Nat Nat where
  nextAndFocus s := if s.2 < s.1 then .ok ((s.1, s.2 + 1), some ((s.2, 0), s.2)) else .ok (s, none)
  atLeaf s := if s.1 = 0 then some s.2 else none

theorem countdown_unfolds (n : Nat) : ∀ d k, k + d = n → ∃ tree, Unfolds countdown (n, k) tree := by
  induction n using Nat.strongRecOn with
  | _ n ihn =>
    intro d
    induction d with
    | zero =>
      rintro k rfl
      exact ⟨_, .done (t' := (k + 0, k)) (by simp [countdown]) (by simp [countdown])⟩
    | succ d ih =>
      intro k hk
      obtain ⟨rest, hr⟩ := ih (k + 1) (by omega)
      obtain ⟨sub, hs⟩ := ihn k (by omega) k 0 (by omega)
      exact ⟨_, .child (t' := (n, k + 1)) (c := (k, 0)) (i := k) (if_pos (show k < n by omega)) hs hr⟩

-- so every state of it describes a tree, and e.g. `(3, 0)` has the leaves `[0], [1, 0], [2, 0], [2, 1, 0]`
example (n : Nat) : ∃ tree, Unfolds countdown (n, 0) tree := countdown_unfolds n n 0 (by omega)

example : Sweep.client countdown (fun _ => false) 100 (Sweep.new (3, 0)) [] =
      .ok (some [([0], 0), ([1, 0], 0), ([2, 0], 0), ([2, 1, 0], 0)]) ∧
    Sweep.client countdown (· == [2, 1]) 100 (Sweep.new (3, 0)) [] = .ok (some [([0], 0), ([1, 0], 0), ([2, 0], 0)]) := by
  decide +kernel

/-- An implementor that offers a child again after `None`. -/
def restarting : FocusIter Bool Nat Unit where
  nextAndFocus b := .ok (!b, if b then some (false, 0) else none)
  atLeaf _ := none

/-- **C83** `None` is the end only because the implementors of the crate keep returning `None`: `Sweep` itself does not
remember that it has ended, so for another implementor the iterator can return something after `None`. -/
theorem C83_fused_refuted : ¬ ∀ (T Item Leaf : Type) (fi : FocusIter T Item Leaf) (t : T) (sw sw' : Sweep T)
    (s : Option (Step Item (Option Leaf))), Sweep.next fi (Sweep.new t) = .ok (sw, none) →
    Sweep.next fi sw = .ok (sw', s) → s = none := by
  intro h
  have := h Bool Nat Unit restarting false ⟨true, []⟩ ⟨false, [false]⟩ (some (.forward 0)) rfl rfl
  cases this

end Verif
