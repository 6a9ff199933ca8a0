import Verif.Model.Timer
/-!
# Invariants of the timer
-/

namespace Verif

/-- The calls of `start` in a sequence of actions, each with the instant of the call. -/
def startCalls : Nat → List TimerAction → List (Nat × Nat)
  | _, [] => []
  | now, .start d :: as => (now, d) :: startCalls now as
  | now, .tick n :: as => startCalls (now + n) as
  | now, .drop :: as => startCalls now as
  | now, .owner :: as => startCalls now as
  | now, .thread _ :: as => startCalls now as
  | now, .wake _ :: as => startCalls now as

/-- How much time passes. -/
def elapsed : List TimerAction → Nat
  | [] => 0
  | .tick n :: as => n + elapsed as
  | _ :: as => elapsed as

namespace TimerPhase

/-- The thread holds the mutex. -/
def holds : TimerPhase → Bool
  | entered => true
  | testing _ => true
  | returned _ => true
  | leaving => true
  | _ => false

/-- The instant at which the waiting began. -/
def begun : TimerPhase → Option Nat
  | testing t => some t
  | sleeping t => some t
  | woken t => some t
  | _ => none

end TimerPhase

namespace OwnerPhase

def holds : OwnerPhase → Bool
  | dropStore => true
  | dropUnlock => true
  | _ => false

def told : OwnerPhase → Bool
  | dropUnlock => true
  | dropNotify => true
  | dropJoin => true
  | dropped => true
  | _ => false

end OwnerPhase

namespace TimerSys

/-- What is known about one thread that was started by the call `c`. -/
structure ThreadInv (s : TimerSys) (i : Nat) (t : TimerThread) (c : Nat × Nat) : Prop where
  dur : t.duration = c.2
  before : c.1 ≤ s.now
  begun : ∀ b, t.phase.begun = some b → c.1 ≤ b ∧ b ≤ s.now
  timedOut : t.phase = .returned true → c.1 + c.2 < s.now
  lock : t.phase.holds = true ↔ s.lock = some (.thread i)
  notEarly : s.dropping = false → t.phase ≠ .returned false
  over : s.dropping = false → t.phase = .leaving ∨ t.phase = .ended → s.finished = true
  awake : s.owner = .dropJoin ∨ s.owner = .dropped → ∀ b, t.phase ≠ .sleeping b

structure Inv (s : TimerSys) (cs : List (Nat × Nat)) : Prop where
  len : s.threads.length = cs.length
  thread : ∀ i t c, s.threads[i]? = some t → cs[i]? = some c → s.ThreadInv i t c
  fin : s.finished = true → ∃ c ∈ cs, c.1 + c.2 < s.now
  ownerLock : s.owner.holds = true ↔ s.lock = some .owner
  lockOwner : ∀ i, s.lock = some (.thread i) → ∃ t, s.threads[i]? = some t
  told : s.dropping = s.owner.told
  handle : s.handle = if s.threads.length = 0 then none else some (s.threads.length - 1)
  joined : s.owner = .dropped → ∀ i, s.handle = some i → ∃ d, s.threads[i]? = some ⟨d, .ended⟩

theorem inv_new (t0 : Nat) : (TimerSys.new t0).Inv [] := by
  constructor <;> simp [TimerSys.new, OwnerPhase.holds, OwnerPhase.told]

theorem Inv.get {s : TimerSys} {cs : List (Nat × Nat)} (h : s.Inv cs) {i : Nat} {t : TimerThread}
    (ht : s.threads[i]? = some t) : ∃ c, cs[i]? = some c ∧ s.ThreadInv i t c := by
  have hi : i < cs.length := by
    rw [← h.len]; exact (List.getElem?_eq_some_iff.1 ht).1
  exact ⟨cs[i], List.getElem?_eq_getElem hi, h.thread _ _ _ ht (List.getElem?_eq_getElem hi)⟩

/-- A step of thread `i` that changes nothing but its own phase, the mutex and the flag. -/
theorem Inv.of_set {s : TimerSys} {cs : List (Nat × Nat)} (h : s.Inv cs) {i : Nat} {t : TimerThread}
    (ht : s.threads[i]? = some t) {p : TimerPhase} {l : Option Holder} {f : Bool}
    (hf : s.finished = true → f = true)
    (hfin : f = true → s.finished = true ∨ t.phase = .returned true)
    (hp : ∀ c, cs[i]? = some c →
      ThreadInv { s with threads := s.threads.set i { t with phase := p }, lock := l, finished := f } i
        { t with phase := p } c)
    (ho : s.owner.holds = true ↔ l = some .owner)
    (hl : ∀ j, j ≠ i → (s.lock = some (.thread j) ↔ l = some (.thread j)))
    (hend : t.phase ≠ .ended) :
    Inv { s with threads := s.threads.set i { t with phase := p }, lock := l, finished := f } cs := by
  have hi := (List.getElem?_eq_some_iff.1 ht).1
  obtain ⟨c, hc, hti⟩ := h.get ht
  refine ⟨by simpa using h.len, ?_, ?_, ho, ?_, h.told, by simpa using h.handle, ?_⟩
  · intro j u d hu hd
    by_cases hj : j = i
    · subst hj
      simp only [List.getElem?_set_self hi, Option.some.injEq] at hu
      subst hu
      exact hp d hd
    · simp only [List.getElem?_set_ne (Ne.symm hj)] at hu
      obtain ⟨h1, h2, h3, h4, h5, h6, h7, h8⟩ := h.thread j u d hu hd
      exact ⟨h1, h2, h3, h4, h5.trans (hl j hj), h6, fun a b => hf (h7 a b), h8⟩
  · intro hft
    rcases hfin hft with h1 | h1
    · exact h.fin h1
    · exact ⟨c, List.mem_of_getElem? hc, hti.timedOut h1⟩
  · intro j hj
    by_cases hji : j = i
    · subst hji
      exact ⟨_, List.getElem?_set_self hi⟩
    · obtain ⟨u, hu⟩ := h.lockOwner j ((hl j hji).2 hj)
      exact ⟨u, by simpa only [List.getElem?_set_ne (Ne.symm hji)] using hu⟩
  · intro hd j hj
    obtain ⟨d, hjd⟩ := h.joined hd j hj
    by_cases hji : j = i
    · subst hji
      rw [ht] at hjd
      simp only [Option.some.injEq] at hjd
      exact absurd (by rw [hjd]) hend
    · exact ⟨d, by simpa only [List.getElem?_set_ne (Ne.symm hji)] using hjd⟩

theorem Inv.threadStep {s s' : TimerSys} {cs : List (Nat × Nat)} (h : s.Inv cs) {i : Nat}
    (hs : s.threadStep i = some s') : s'.Inv cs := by
  unfold TimerSys.threadStep at hs
  split at hs
  · cases hs
  · rename_i t ht
    obtain ⟨c, hc, h1, h2, h3, h4, h5, h6, h7, h8⟩ := h.get ht
    have hc' : ∀ d, cs[i]? = some d → d = c := fun d hd => by rw [hc] at hd; exact (Option.some.inj hd).symm
    have hoo := h.ownerLock
    split at hs
    case h_1 hph =>
      split at hs
      · rename_i hlock
        cases hs
        refine h.of_set (f := s.finished) (l := some (.thread i)) ht (fun a => a) .inl (fun d hd => ?_) ?_ ?_ ?_
        · rw [hc' d hd]
          constructor <;> simp_all [TimerPhase.holds, TimerPhase.begun]
        · rw [hoo, hlock]; simp
        · intro j hj; rw [hlock]; simp [Ne.symm hj]
        · simp [hph]
      · cases hs
    case h_2 hph =>
      cases hs
      refine h.of_set (f := s.finished) (l := s.lock) ht (fun a => a) .inl (fun d hd => ?_) hoo (fun _ _ => Iff.rfl) (by simp [hph])
      rw [hc' d hd]
      constructor <;> simp_all [TimerPhase.holds, TimerPhase.begun]
    case h_3 start hph =>
      split at hs
      · rename_i hd'
        cases hs
        refine h.of_set (f := s.finished) (l := s.lock) ht (fun a => a) .inl (fun d hd => ?_) hoo (fun _ _ => Iff.rfl) (by simp [hph])
        rw [hc' d hd]
        constructor <;> simp_all [TimerPhase.holds, TimerPhase.begun]
      · rename_i hd'
        have hb := h3 start (by simp [hph, TimerPhase.begun])
        split at hs
        · rename_i hel
          cases hs
          refine h.of_set (f := s.finished) (l := s.lock) ht (fun a => a) .inl (fun d hd => ?_) hoo (fun _ _ => Iff.rfl) (by simp [hph])
          rw [hc' d hd]
          constructor <;> simp_all [TimerPhase.holds, TimerPhase.begun]
          omega
        · cases hs
          have hlk : s.lock = some (.thread i) := h5.1 (by simp [hph, TimerPhase.holds])
          refine h.of_set (f := s.finished) (l := none) ht (fun a => a) .inl (fun d hd => ?_) ?_ ?_ (by simp [hph])
          · rw [hc' d hd]
            have ht' := h.told
            constructor <;> simp_all [TimerPhase.holds, TimerPhase.begun]
            constructor <;> intro ho <;> simp [ho, OwnerPhase.told] at hd'
          · rw [hoo, hlk]; simp
          · intro j hj; rw [hlk]; simp [Ne.symm hj]
    case h_4 => cases hs
    case h_5 start hph =>
      split at hs
      · rename_i hlock
        cases hs
        refine h.of_set (f := s.finished) (l := some (.thread i)) ht (fun a => a) .inl (fun d hd => ?_) ?_ ?_ (by simp [hph])
        · rw [hc' d hd]
          constructor <;> simp_all [TimerPhase.holds, TimerPhase.begun]
        · rw [hoo, hlock]; simp
        · intro j hj; rw [hlock]; simp [Ne.symm hj]
      · cases hs
    case h_6 b hph =>
      split at hs
      · rename_i hb
        cases hs
        refine h.of_set (f := true) (l := s.lock) ht (fun _ => rfl) (fun _ => .inr (by rw [hph, hb])) (fun d hd => ?_) hoo (fun _ _ => Iff.rfl) (by simp [hph])
        rw [hc' d hd]
        constructor <;> simp_all [TimerPhase.holds, TimerPhase.begun]
      · rename_i hb
        cases hs
        refine h.of_set (f := s.finished) (l := s.lock) ht (fun a => a) .inl (fun d hd => ?_) hoo (fun _ _ => Iff.rfl) (by simp [hph])
        rw [hc' d hd]
        constructor <;> simp_all [TimerPhase.holds, TimerPhase.begun]
    case h_7 hph =>
      cases hs
      have hlk : s.lock = some (.thread i) := h5.1 (by simp [hph, TimerPhase.holds])
      refine h.of_set (f := s.finished) (l := none) ht (fun a => a) .inl (fun d hd => ?_) ?_ ?_ (by simp [hph])
      · rw [hc' d hd]
        constructor <;> simp_all [TimerPhase.holds, TimerPhase.begun]
      · rw [hoo, hlk]; simp
      · intro j hj; rw [hlk]; simp [Ne.symm hj]
    case h_8 => cases hs

theorem notifyAll_get {s : TimerSys} {i : Nat} {u : TimerThread}
    (hu : s.notifyAll.threads[i]? = some u) :
    ∃ t, s.threads[i]? = some t ∧ u.duration = t.duration ∧
      ((∃ b, t.phase = .sleeping b ∧ u.phase = .woken b) ∨
        ((∀ b, t.phase ≠ .sleeping b) ∧ u = t)) := by
  simp only [TimerSys.notifyAll, List.getElem?_map, Option.map_eq_some_iff] at hu
  obtain ⟨t, ht, rfl⟩ := hu
  refine ⟨t, ht, ?_⟩
  split
  · rename_i b hb
    exact ⟨rfl, .inl ⟨b, hb, rfl⟩⟩
  · rename_i hne
    exact ⟨rfl, .inr ⟨fun b hb => hne b hb, rfl⟩⟩

theorem Inv.ownerStep {s s' : TimerSys} {cs : List (Nat × Nat)} (h : s.Inv cs)
    (hs : s.ownerStep = some s') : s'.Inv cs := by
  obtain ⟨hlen, hth, hfin, hol, hlo, htold, hh, hj⟩ := h
  unfold TimerSys.ownerStep at hs
  split at hs
  case h_1 => cases hs
  case h_2 ho =>
    split at hs
    · rename_i hl
      cases hs
      refine ⟨hlen, fun i t c ht hc => ?_, hfin, by simp [OwnerPhase.holds], by simp, by
        simpa [ho, OwnerPhase.told] using htold, hh, by simp⟩
      obtain ⟨h1, h2, h3, h4, h5, h6, h7, h8⟩ := hth i t c ht hc
      exact ⟨h1, h2, h3, h4, by simpa [hl] using h5, h6, h7, by simp⟩
    · cases hs
  case h_3 ho =>
    cases hs
    have hl : s.lock = some .owner := hol.1 (by simp [ho, OwnerPhase.holds])
    refine ⟨hlen, fun i t c ht hc => ?_, hfin, by simp [OwnerPhase.holds, hl], hlo, rfl, hh, by simp⟩
    obtain ⟨h1, h2, h3, h4, h5, h6, h7, h8⟩ := hth i t c ht hc
    exact ⟨h1, h2, h3, h4, h5, by simp, by simp, by simp⟩
  case h_4 ho =>
    cases hs
    have hl : s.lock = some .owner := hol.1 (by simp [ho, OwnerPhase.holds])
    have hd : s.dropping = true := by simpa [ho, OwnerPhase.told] using htold
    refine ⟨hlen, fun i t c ht hc => ?_, hfin, by simp [OwnerPhase.holds], by simp, by
      simpa [OwnerPhase.told] using hd, hh, by simp⟩
    obtain ⟨h1, h2, h3, h4, h5, h6, h7, h8⟩ := hth i t c ht hc
    exact ⟨h1, h2, h3, h4, by simpa [hl] using h5, h6, h7, by simp⟩
  case h_5 ho =>
    cases hs
    have hd : s.dropping = true := by simpa [ho, OwnerPhase.told] using htold
    have hlen' : s.notifyAll.threads.length = s.threads.length := by simp [TimerSys.notifyAll]
    refine ⟨hlen'.trans hlen, fun i u c hu hc => ?_, hfin, ?_, ?_, by
      simpa [OwnerPhase.told, TimerSys.notifyAll] using hd, ?_, by simp⟩
    · obtain ⟨t, ht, hdur, hcase⟩ := notifyAll_get hu
      obtain ⟨h1, h2, h3, h4, h5, h6, h7, h8⟩ := hth i t c ht hc
      rcases hcase with ⟨b, hb, hub⟩ | ⟨hne, rfl⟩
      · refine ⟨hdur.trans h1, h2, ?_, by simp [hub], ?_, by simp [hub], by simp [hub], by simp [hub]⟩
        · intro b' hb'
          rw [hub] at hb'
          exact h3 b' (by rw [hb]; exact hb')
        · rw [hub]
          rw [hb] at h5
          exact h5
      · exact ⟨h1, h2, h3, h4, h5, h6, h7, fun _ => hne⟩
    · simpa [OwnerPhase.holds, ho, TimerSys.notifyAll] using hol
    · intro i hi
      obtain ⟨t, ht⟩ := hlo i hi
      have : i < s.notifyAll.threads.length := by
        rw [hlen']; exact (List.getElem?_eq_some_iff.1 ht).1
      exact ⟨_, List.getElem?_eq_getElem this⟩
    · show s.handle = _
      rw [hh]
      simp only [hlen']
  case h_6 ho =>
    have hd : s.dropping = true := by simpa [ho, OwnerPhase.told] using htold
    have key : (∀ i, s.handle = some i → ∃ d, s.threads[i]? = some ⟨d, .ended⟩) →
        Inv { s with owner := .dropped } cs := by
      intro hk
      refine ⟨hlen, fun i t c ht hc => ?_, hfin, by simpa [OwnerPhase.holds, ho] using hol, hlo, by
        simpa [OwnerPhase.told] using hd, hh, fun _ => hk⟩
      obtain ⟨h1, h2, h3, h4, h5, h6, h7, h8⟩ := hth i t c ht hc
      exact ⟨h1, h2, h3, h4, h5, h6, h7, fun _ => h8 (.inl ho)⟩
    split at hs
    · rename_i hn
      cases hs
      exact key fun i hi => by rw [hn] at hi; cases hi
    · rename_i i hi
      split at hs
      · rename_i d hd'
        cases hs
        refine key fun j hj' => ?_
        rw [hi] at hj'
        cases hj'
        exact ⟨d, hd'⟩
      · cases hs
  case h_7 => cases hs

theorem Inv.step {s s' : TimerSys} {cs : List (Nat × Nat)} (h : s.Inv cs) {a : TimerAction}
    (hs : s.step a = some s') : s'.Inv (cs ++ startCalls s.now [a]) := by
  cases a with
  | start d =>
    simp only [TimerSys.step] at hs
    split at hs
    · rename_i ho
      cases hs
      obtain ⟨hlen, hth, hfin, hol, hlo, htold, hh, hj⟩ := h
      refine ⟨by simp [startCalls, hlen], ?_, ?_, hol, ?_, htold, by simp, by simp [ho]⟩
      · intro i t c ht hc
        simp only [startCalls] at hc
        rcases Nat.lt_or_ge i s.threads.length with hi | hi
        · rw [List.getElem?_append_left hi] at ht
          rw [List.getElem?_append_left (hlen ▸ hi)] at hc
          obtain ⟨h1, h2, h3, h4, h5, h6, h7, h8⟩ := hth i t c ht hc
          exact ⟨h1, h2, h3, h4, h5, h6, h7, h8⟩
        · rw [List.getElem?_append_right hi] at ht
          rw [List.getElem?_append_right (hlen ▸ hi)] at hc
          have hi0 : i = s.threads.length := by
            have := (List.getElem?_eq_some_iff.1 ht).1
            simp at this
            omega
          subst hi0
          simp at ht
          rw [hlen] at hc
          simp at hc
          subst ht hc
          refine ⟨rfl, Nat.le_refl _, by simp [TimerPhase.begun], by simp, ?_, by simp, by simp, by simp⟩
          simp only [TimerPhase.holds, Bool.false_eq_true, false_iff]
          intro hlock
          obtain ⟨t, ht⟩ := hlo _ hlock
          have := (List.getElem?_eq_some_iff.1 ht).1
          omega
      · intro hf
        obtain ⟨c, hc, hlt⟩ := hfin hf
        exact ⟨c, by simp [hc], hlt⟩
      · intro i hi
        obtain ⟨t, ht⟩ := hlo i hi
        exact ⟨t, by rw [List.getElem?_append_left (List.getElem?_eq_some_iff.1 ht).1]; exact ht⟩
    · cases hs
  | drop =>
    simp only [TimerSys.step] at hs
    split at hs
    · rename_i ho
      cases hs
      obtain ⟨hlen, hth, hfin, hol, hlo, htold, hh, hj⟩ := h
      simp only [startCalls, List.append_nil]
      refine ⟨hlen, fun i t c ht hc => ?_, hfin, by simpa [OwnerPhase.holds, ho] using hol, hlo, by
        simpa [OwnerPhase.told, ho] using htold, hh, by simp⟩
      obtain ⟨h1, h2, h3, h4, h5, h6, h7, h8⟩ := hth i t c ht hc
      exact ⟨h1, h2, h3, h4, h5, h6, h7, by simp⟩
    · cases hs
  | owner => simpa [startCalls] using h.ownerStep hs
  | thread i => simpa [startCalls] using h.threadStep hs
  | wake i =>
    simp only [TimerSys.step] at hs
    split at hs
    · rename_i t ht
      obtain ⟨c, hc, h1, h2, h3, h4, h5, h6, h7, h8⟩ := h.get ht
      have hc' : ∀ d, cs[i]? = some d → d = c := fun d hd => by
        rw [hc] at hd; exact (Option.some.inj hd).symm
      split at hs
      · rename_i b hph
        cases hs
        simp only [startCalls, List.append_nil]
        refine h.of_set (f := s.finished) (l := s.lock) ht (fun a => a) .inl (fun d hd => ?_)
          h.ownerLock (fun _ _ => Iff.rfl) (by simp [hph])
        rw [hc' d hd]
        constructor <;> simp_all [TimerPhase.holds, TimerPhase.begun]
      · cases hs
    · cases hs
  | tick n =>
    simp only [TimerSys.step, Option.some.injEq] at hs
    subst hs
    obtain ⟨hlen, hth, hfin, hol, hlo, htold, hh, hj⟩ := h
    simp only [startCalls, List.append_nil]
    refine ⟨hlen, fun i t c ht hc => ?_, fun hf => ?_, hol, hlo, htold, hh, hj⟩
    · obtain ⟨h1, h2, h3, h4, h5, h6, h7, h8⟩ := hth i t c ht hc
      refine ⟨h1, Nat.le_trans h2 (Nat.le_add_right _ _), fun b hb => ?_, fun hp => ?_, h5, h6, h7, h8⟩
      · have := h3 b hb
        exact ⟨this.1, Nat.le_trans this.2 (Nat.le_add_right _ _)⟩
      · exact Nat.lt_of_lt_of_le (h4 hp) (Nat.le_add_right _ _)
    · obtain ⟨c, hc, hlt⟩ := hfin hf
      exact ⟨c, hc, Nat.lt_of_lt_of_le hlt (Nat.le_add_right _ _)⟩

theorem startCalls_cons (now : Nat) (a : TimerAction) (as : List TimerAction) :
    startCalls now (a :: as) = startCalls now [a] ++ startCalls (now + elapsed [a]) as := by
  cases a <;> simp [startCalls, elapsed]

theorem step_now {s s' : TimerSys} {a : TimerAction} (hs : s.step a = some s') :
    s'.now = s.now + elapsed [a] := by
  cases a with
  | start d => simp only [TimerSys.step] at hs; split at hs <;> cases hs <;> rfl
  | drop => simp only [TimerSys.step] at hs; split at hs <;> cases hs <;> rfl
  | owner =>
    simp only [TimerSys.step, ownerStep] at hs
    repeat' (split at hs)
    all_goals first | cases hs; done | (cases hs; rfl)
  | thread i =>
    simp only [TimerSys.step, TimerSys.threadStep] at hs
    repeat' (split at hs)
    all_goals first | cases hs; done | (cases hs; rfl)
  | wake i =>
    simp only [TimerSys.step] at hs
    repeat' (split at hs)
    all_goals first | cases hs; done | (cases hs; rfl)
  | tick n => simp only [TimerSys.step, Option.some.injEq] at hs; subst hs; simp [elapsed]

theorem Inv.exec {as : List TimerAction} : ∀ {s s' : TimerSys} {cs : List (Nat × Nat)}, s.Inv cs →
    s.exec as = some s' → s'.Inv (cs ++ startCalls s.now as) := by
  induction as with
  | nil =>
    intro s s' cs h hs
    simp only [TimerSys.exec, Option.some.injEq] at hs
    subst hs
    simpa [startCalls] using h
  | cons a as ih =>
    intro s s' cs h hs
    simp only [TimerSys.exec] at hs
    split at hs
    · rename_i s1 h1
      have := ih (h.step h1) hs
      rw [startCalls_cons, ← List.append_assoc, ← step_now h1]
      exact this
    · cases hs

end TimerSys
end Verif

namespace Verif
namespace TimerSys

theorem exec_append {as bs : List TimerAction} : ∀ {s : TimerSys},
    s.exec (as ++ bs) = (s.exec as).bind fun s' => s'.exec bs := by
  induction as with
  | nil => intro s; rfl
  | cons a as ih =>
    intro s
    simp only [List.cons_append, TimerSys.exec]
    split
    · exact ih
    · rfl

theorem exec_now {as : List TimerAction} : ∀ {s s' : TimerSys}, s.exec as = some s' →
    s'.now = s.now + elapsed as := by
  induction as with
  | nil =>
    intro s s' hs
    simp only [TimerSys.exec, Option.some.injEq] at hs
    subst hs
    simp [elapsed]
  | cons a as ih =>
    intro s s' hs
    simp only [TimerSys.exec] at hs
    split at hs
    · rename_i s1 h1
      rw [ih hs, step_now h1]
      cases a <;> simp [elapsed, Nat.add_assoc]
    · cases hs

theorem step_stays {s s' : TimerSys} {a : TimerAction} (hs : s.step a = some s')
    (hf : s.finished = true) : s'.finished = true := by
  cases a with
  | start d => simp only [TimerSys.step] at hs; split at hs <;> cases hs <;> exact hf
  | drop => simp only [TimerSys.step] at hs; split at hs <;> cases hs <;> exact hf
  | owner =>
    simp only [TimerSys.step, ownerStep] at hs
    repeat' (split at hs)
    all_goals first | cases hs; done | (cases hs; exact hf)
  | thread i =>
    simp only [TimerSys.step, TimerSys.threadStep] at hs
    repeat' (split at hs)
    all_goals first | cases hs; done | (cases hs; first | exact hf | rfl)
  | wake i =>
    simp only [TimerSys.step] at hs
    repeat' (split at hs)
    all_goals first | cases hs; done | (cases hs; exact hf)
  | tick n => simp only [TimerSys.step, Option.some.injEq] at hs; subst hs; exact hf

theorem step_alive {s s' : TimerSys} {a : TimerAction} (hs : s.step a = some s')
    (ha : s'.owner = .alive) : s.owner = .alive := by
  cases a with
  | start d =>
    simp only [TimerSys.step] at hs; split at hs
    · assumption
    · cases hs
  | drop =>
    simp only [TimerSys.step] at hs; split at hs
    · assumption
    · cases hs
  | owner =>
    simp only [TimerSys.step, ownerStep] at hs
    repeat' (split at hs)
    all_goals first | cases hs; done | (cases hs; first | exact ha | cases ha)
  | thread i =>
    simp only [TimerSys.step, TimerSys.threadStep] at hs
    repeat' (split at hs)
    all_goals first | cases hs; done | (cases hs; exact ha)
  | wake i =>
    simp only [TimerSys.step] at hs
    repeat' (split at hs)
    all_goals first | cases hs; done | (cases hs; exact ha)
  | tick n => simp only [TimerSys.step, Option.some.injEq] at hs; subst hs; exact ha

theorem exec_alive {as : List TimerAction} : ∀ {s s' : TimerSys}, s.exec as = some s' →
    s'.owner = .alive → s.owner = .alive := by
  induction as with
  | nil =>
    intro s s' hs ha
    simp only [TimerSys.exec, Option.some.injEq] at hs
    subst hs
    exact ha
  | cons a as ih =>
    intro s s' hs ha
    simp only [TimerSys.exec] at hs
    split at hs
    · rename_i s1 h1
      exact step_alive h1 (ih hs ha)
    · cases hs

/-- What an action of somebody else does to thread `i` as long as the timer is not dropped. -/
theorem step_other {s s' : TimerSys} {a : TimerAction} (hs : s.step a = some s') {i : Nat}
    {t : TimerThread} (ht : s.threads[i]? = some t) (ha : a ≠ .thread i) (hal : s.owner = .alive) :
    s'.threads[i]? = some t ∨
      ∃ b, t.phase = .sleeping b ∧ s'.threads[i]? = some { t with phase := .woken b } := by
  have hset : ∀ j p (u : TimerThread), j ≠ i → (s.threads.set j { u with phase := p })[i]? = some t := by
    intro j p u hj
    rw [List.getElem?_set_ne hj]
    exact ht
  cases a with
  | start d =>
    simp only [TimerSys.step, hal, Option.some.injEq] at hs
    subst hs
    left
    simp only
    rw [List.getElem?_append_left (List.getElem?_eq_some_iff.1 ht).1]
    exact ht
  | drop =>
    simp only [TimerSys.step, hal, Option.some.injEq] at hs
    subst hs
    exact .inl ht
  | owner =>
    simp only [TimerSys.step, ownerStep, hal] at hs
    cases hs
  | thread j =>
    have hj : j ≠ i := fun h => ha (by rw [h])
    simp only [TimerSys.step, TimerSys.threadStep] at hs
    repeat' (split at hs)
    all_goals first | cases hs; done | (cases hs; exact .inl (hset j _ _ hj))
  | wake j =>
    simp only [TimerSys.step] at hs
    split at hs
    · rename_i u hu
      split at hs
      · rename_i b hb
        cases hs
        by_cases hj : j = i
        · subst hj
          rw [ht] at hu
          cases hu
          exact .inr ⟨b, hb, by
            simp only [TimerSys.goto]
            exact List.getElem?_set_self (List.getElem?_eq_some_iff.1 ht).1⟩
        · exact .inl (hset j _ _ hj)
      · cases hs
    · cases hs
  | tick n => simp only [TimerSys.step, Option.some.injEq] at hs; subst hs; exact .inl ht

/-- What a step of thread `i` does to its phase. -/
theorem step_own {s s' : TimerSys} {i : Nat} (hs : s.threadStep i = some s')
    {t : TimerThread} (ht : s.threads[i]? = some t) :
    ∃ p, s'.threads[i]? = some { t with phase := p } ∧
      ((t.phase = .spawned ∧ p = .entered) ∨
       (t.phase = .entered ∧ p = .testing s.now) ∨
       (∃ b, t.phase = .testing b ∧ s.dropping = true ∧ p = .returned false) ∨
       (∃ b, t.phase = .testing b ∧ s.dropping = false ∧ b + t.duration < s.now ∧ p = .returned true) ∨
       (∃ b, t.phase = .testing b ∧ s.dropping = false ∧ s.now ≤ b + t.duration ∧ p = .sleeping b) ∨
       (∃ b, t.phase = .woken b ∧ p = .testing b) ∨
       (∃ r, t.phase = .returned r ∧ p = .leaving) ∨
       (t.phase = .leaving ∧ p = .ended)) := by
  have hi := (List.getElem?_eq_some_iff.1 ht).1
  simp only [TimerSys.threadStep, ht] at hs
  repeat' (split at hs)
  all_goals first
    | cases hs; done
    | (cases hs
       refine ⟨_, List.getElem?_set_self hi, ?_⟩
       simp_all
       try omega)

/-- How far the thread is from having read the clock. -/
def TimerPhase.early : TimerPhase → Nat
  | .spawned => 2
  | .entered => 1
  | _ => 0

theorem exec_begins {as : List TimerAction} : ∀ {s s' : TimerSys} {i : Nat} {t : TimerThread},
    s.exec as = some s' → s'.owner = .alive → s.threads[i]? = some t →
    ∃ t', s'.threads[i]? = some t' ∧ t'.duration = t.duration ∧
      TimerPhase.early t'.phase ≤ TimerPhase.early t.phase - as.count (.thread i) := by
  induction as with
  | nil =>
    intro s s' i t hs ha ht
    simp only [TimerSys.exec, Option.some.injEq] at hs
    subst hs
    exact ⟨t, ht, rfl, by simp⟩
  | cons a as ih =>
    intro s s' i t hs ha ht
    simp only [TimerSys.exec] at hs
    split at hs
    · rename_i s1 h1
      have hal := step_alive h1 (exec_alive hs ha)
      by_cases hai : a = .thread i
      · subst hai
        obtain ⟨p, hp, hcase⟩ := step_own h1 ht
        obtain ⟨t', ht', hd', hle⟩ := ih hs ha hp
        refine ⟨t', ht', hd', ?_⟩
        have : TimerPhase.early p ≤ TimerPhase.early t.phase - 1 := by
          rcases hcase with ⟨h, rfl⟩ | ⟨h, rfl⟩ | ⟨b, h, _, rfl⟩ | ⟨b, h, _, _, rfl⟩ | ⟨b, h, _, _, rfl⟩ |
            ⟨b, h, rfl⟩ | ⟨b, h, rfl⟩ | ⟨h, rfl⟩ <;> simp [h, TimerPhase.early]
        rw [List.count_cons_self]
        simp only at hle
        omega
      · rw [List.count_cons_of_ne hai]
        rcases step_other h1 ht hai hal with h | ⟨b, hb, h⟩
        · exact ih hs ha h
        · obtain ⟨t', ht', hd', hle⟩ := ih hs ha h
          refine ⟨t', ht', hd', Nat.le_trans hle ?_⟩
          simp [TimerPhase.early]
    · cases hs

/-- The thread has read the clock at `b` or earlier, or is already past waiting. -/
def Begun (t : TimerThread) (b : Nat) : Prop :=
  (∃ b', t.phase.begun = some b' ∧ b' ≤ b) ∨ t.phase = .returned true ∨ t.phase = .leaving ∨
    t.phase = .ended

theorem exec_begun {as : List TimerAction} : ∀ {s s' : TimerSys} {i : Nat} {t : TimerThread} {b : Nat},
    s.exec as = some s' → s'.owner = .alive → s.dropping = false → s.threads[i]? = some t → Begun t b →
    ∃ t', s'.threads[i]? = some t' ∧ t'.duration = t.duration ∧ Begun t' b := by
  induction as with
  | nil =>
    intro s s' i t b hs ha _ ht hb
    simp only [TimerSys.exec, Option.some.injEq] at hs
    subst hs
    exact ⟨t, ht, rfl, hb⟩
  | cons a as ih =>
    intro s s' i t b hs ha hd ht hb
    simp only [TimerSys.exec] at hs
    split at hs
    · rename_i s1 h1
      have hal := step_alive h1 (exec_alive hs ha)
      have hd1 : s1.dropping = false := by
        cases a with
        | start d => simp only [TimerSys.step, hal, Option.some.injEq] at h1; subst h1; exact hd
        | drop => simp only [TimerSys.step, hal, Option.some.injEq] at h1; subst h1; exact hd
        | owner => simp only [TimerSys.step, ownerStep, hal] at h1; cases h1
        | thread i =>
          simp only [TimerSys.step, TimerSys.threadStep] at h1
          repeat' (split at h1)
          all_goals first | cases h1; done | (cases h1; exact hd)
        | wake i =>
          simp only [TimerSys.step] at h1
          repeat' (split at h1)
          all_goals first | cases h1; done | (cases h1; exact hd)
        | tick n => simp only [TimerSys.step, Option.some.injEq] at h1; subst h1; exact hd
      by_cases hai : a = .thread i
      · subst hai
        obtain ⟨p, hp, hcase⟩ := step_own h1 ht
        refine (fun hB => ?_ : Begun { t with phase := p } b → _) ?_
        · obtain ⟨t', ht', hd', hb'⟩ := ih hs ha hd1 hp hB
          exact ⟨t', ht', hd', hb'⟩
        rcases hcase with ⟨h, rfl⟩ | ⟨h, rfl⟩ | ⟨b, h, h', rfl⟩ | ⟨b, h, _, _, rfl⟩ | ⟨b, h, _, _, rfl⟩ |
            ⟨b, h, rfl⟩ | ⟨b, h, rfl⟩ | ⟨h, rfl⟩ <;>
          simp_all [Begun, TimerPhase.begun]
      · rcases step_other h1 ht hai hal with h | ⟨b', hb', h⟩
        · exact ih hs ha hd1 h hb
        · obtain ⟨t', ht', hd', hb''⟩ := ih (b := b) hs ha hd1 h (by
            simpa [Begun, hb', TimerPhase.begun] using hb)
          exact ⟨t', ht', hd', hb''⟩
    · cases hs

/-- The thread has nothing to wait for any more. -/
def Late (now : Nat) (t : TimerThread) : Prop :=
  (∃ b, t.phase.begun = some b ∧ b + t.duration < now) ∨ t.phase = .returned true ∨
    t.phase = .leaving ∨ t.phase = .ended

/-- How many steps the thread still needs before it has reported the timeout. -/
def TimerPhase.left : TimerPhase → Nat
  | .sleeping _ => 3
  | .woken _ => 3
  | .testing _ => 2
  | .returned _ => 1
  | _ => 0

theorem Late.mono {now now' : Nat} {t : TimerThread} (h : Late now t) (hle : now ≤ now') :
    Late now' t := by
  rcases h with ⟨b, hb, hlt⟩ | h
  · exact .inl ⟨b, hb, Nat.lt_of_lt_of_le hlt hle⟩
  · exact .inr h

theorem exec_late {as : List TimerAction} : ∀ {s s' : TimerSys} {i : Nat} {t : TimerThread}
    {cs : List (Nat × Nat)}, s.Inv cs →
    s.exec as = some s' → s'.owner = .alive → s.threads[i]? = some t → Late s.now t →
    ∃ t', s'.threads[i]? = some t' ∧ Late s'.now t' ∧
      TimerPhase.left t'.phase ≤ TimerPhase.left t.phase - as.count (.thread i) := by
  induction as with
  | nil =>
    intro s s' i t cs hinv hs ha ht hl
    simp only [TimerSys.exec, Option.some.injEq] at hs
    subst hs
    exact ⟨t, ht, hl, by simp⟩
  | cons a as ih =>
    intro s s' i t cs hinv hs ha ht hl
    simp only [TimerSys.exec] at hs
    split at hs
    · rename_i s1 h1
      have hal := step_alive h1 (exec_alive hs ha)
      have hd : s.dropping = false := by rw [hinv.told, hal]; rfl
      have hnow : s.now ≤ s1.now := by rw [step_now h1]; omega
      by_cases hai : a = .thread i
      · subst hai
        obtain ⟨p, hp, hcase⟩ := step_own h1 ht
        have hlate : Late s1.now { t with phase := p } ∧
            TimerPhase.left p ≤ TimerPhase.left t.phase - 1 := by
          have hl' := hl.mono hnow
          rcases hcase with ⟨h, rfl⟩ | ⟨h, rfl⟩ | ⟨b, h, h', rfl⟩ | ⟨b, h, _, _, rfl⟩ | ⟨b, h, _, hle, rfl⟩ |
            ⟨b, h, rfl⟩ | ⟨b, h, rfl⟩ | ⟨h, rfl⟩
          · simp [Late, h, TimerPhase.begun] at hl
          · simp [Late, h, TimerPhase.begun] at hl
          · rw [hd] at h'; cases h'
          · simp [Late, h, TimerPhase.left]
          · simp [Late, h, TimerPhase.begun] at hl; omega
          · simpa [Late, h, TimerPhase.begun, TimerPhase.left] using hl'
          · simp [Late, h, TimerPhase.left]
          · simp [Late, h, TimerPhase.left]
        obtain ⟨t', ht', hl', hle⟩ := ih (hinv.step h1) hs ha hp hlate.1
        refine ⟨t', ht', hl', ?_⟩
        rw [List.count_cons_self]
        have := hlate.2
        simp only at hle
        omega
      · rw [List.count_cons_of_ne hai]
        rcases step_other h1 ht hai hal with h | ⟨b', hb', h⟩
        · exact ih (hinv.step h1) hs ha h (hl.mono hnow)
        · obtain ⟨t', ht', hl', hle⟩ := ih (hinv.step h1) hs ha h (by
            have := hl.mono hnow
            simpa [Late, hb', TimerPhase.begun] using this)
          exact ⟨t', ht', hl', by simpa [hb', TimerPhase.left] using hle⟩
    · cases hs

/-- A thread that holds the mutex can go on. -/
theorem can_of_holds {s : TimerSys} {i : Nat} {t : TimerThread} (ht : s.threads[i]? = some t)
    (hh : t.phase.holds = true) : ∃ s', s.threadStep i = some s' := by
  simp only [TimerSys.threadStep, ht]
  split <;> (try (simp_all [TimerPhase.holds]; done))
  all_goals
    repeat' split
    all_goals exact ⟨_, rfl⟩

/-- If the mutex is taken, its holder can go on. -/
theorem Inv.holder {s : TimerSys} {cs : List (Nat × Nat)} (h : s.Inv cs) {l : Holder}
    (hl : s.lock = some l) :
    (l = .owner ∧ ∃ s', s.ownerStep = some s') ∨
      ∃ i, l = .thread i ∧ ∃ s', s.threadStep i = some s' := by
  cases l with
  | owner =>
    have := h.ownerLock.2 hl
    refine .inl ⟨rfl, ?_⟩
    unfold TimerSys.ownerStep
    split <;> simp_all [OwnerPhase.holds]
  | thread i =>
    obtain ⟨t, ht⟩ := h.lockOwner i hl
    obtain ⟨c, hc, hti⟩ := h.get ht
    exact .inr ⟨i, rfl, can_of_holds ht (hti.lock.2 hl)⟩

/-- A thread that neither sleeps nor has ended can go on, or waits for somebody who can. -/
theorem Inv.moves {s : TimerSys} {cs : List (Nat × Nat)} (h : s.Inv cs) {i : Nat} {t : TimerThread}
    (ht : s.threads[i]? = some t) (hs : ∀ b, t.phase ≠ .sleeping b) (he : t.phase ≠ .ended) :
    (∃ s', s.threadStep i = some s') ∨ (∃ s', s.ownerStep = some s') ∨
      ∃ j s', s.lock = some (.thread j) ∧ s.threadStep j = some s' := by
  by_cases hh : t.phase.holds = true
  · exact .inl (can_of_holds ht hh)
  · cases hl : s.lock with
    | none =>
      left
      simp only [TimerSys.threadStep, ht]
      split <;> simp_all [TimerPhase.holds]
    | some l =>
      rcases h.holder hl with ⟨_, h'⟩ | ⟨j, rfl, s', h'⟩
      · exact .inr (.inl h')
      · exact .inr (.inr ⟨j, s', rfl, h'⟩)

/-- An upper bound for the number of steps of a thread once the timer is being dropped. -/
def TimerPhase.pot : TimerPhase → Nat
  | .spawned => 5
  | .sleeping _ => 5
  | .entered => 4
  | .woken _ => 4
  | .testing _ => 3
  | .returned _ => 2
  | .leaving => 1
  | .ended => 0

def OwnerPhase.pot : OwnerPhase → Nat
  | .dropUnlock => 3
  | .dropNotify => 2
  | .dropJoin => 1
  | _ => 0

def pot (s : TimerSys) : Nat :=
  (s.threads.map fun t => TimerPhase.pot t.phase).sum + OwnerPhase.pot s.owner

theorem sum_set (l : List TimerThread) : ∀ (i : Nat) (t u : TimerThread), l[i]? = some t →
    ((l.set i u).map fun t => TimerPhase.pot t.phase).sum + TimerPhase.pot t.phase =
      (l.map fun t => TimerPhase.pot t.phase).sum + TimerPhase.pot u.phase := by
  induction l with
  | nil => intro i t u h; simp at h
  | cons x l ih =>
    intro i t u h
    cases i with
    | zero =>
      simp at h
      subst h
      simp only [List.set_cons_zero, List.map_cons, List.sum_cons]
      omega
    | succ i =>
      have := ih i t u (by simpa using h)
      simp only [List.set_cons_succ, List.map_cons, List.sum_cons]
      omega

theorem sum_notify (l : List TimerThread) :
    ((l.map fun t => match t.phase with
      | .sleeping start => { t with phase := TimerPhase.woken start }
      | _ => t).map fun t => TimerPhase.pot t.phase).sum ≤
      (l.map fun t => TimerPhase.pot t.phase).sum := by
  induction l with
  | nil => simp
  | cons x l ih =>
    simp only [List.map_cons, List.sum_cons]
    refine Nat.add_le_add ?_ ih
    split
    · rename_i h; rw [h]; simp [TimerPhase.pot]
    · exact Nat.le_refl _

theorem step_pot {s s' : TimerSys} {cs : List (Nat × Nat)} (h : s.Inv cs) (hd : s.dropping = true)
    {a : TimerAction} (hs : s.step a = some s') :
    (∃ n, a = .tick n ∧ s'.pot = s.pot) ∨ s'.pot < s.pot := by
  have hna : s.owner ≠ .alive := by
    intro ho
    have := h.told
    rw [hd, ho] at this
    cases this
  cases a with
  | start d =>
    simp only [TimerSys.step] at hs
    cases hs
  | drop =>
    simp only [TimerSys.step] at hs
    cases hs
  | owner =>
    right
    simp only [TimerSys.step, ownerStep] at hs
    split at hs
    case h_1 => cases hs
    case h_2 ho =>
      have := h.told
      rw [hd, ho] at this
      cases this
    case h_3 ho =>
      have := h.told
      rw [hd, ho] at this
      cases this
    case h_4 ho => cases hs; simp [pot, ho, OwnerPhase.pot]
    case h_5 ho =>
      cases hs
      have := sum_notify s.threads
      simp only [pot, ho, OwnerPhase.pot]
      refine Nat.lt_of_le_of_lt (Nat.add_le_add_right this 1) ?_
      omega
    case h_6 ho =>
      split at hs
      · cases hs; simp [pot, ho, OwnerPhase.pot]
      · split at hs
        · cases hs; simp [pot, ho, OwnerPhase.pot]
        · cases hs
    case h_7 => cases hs
  | thread i =>
    right
    simp only [TimerSys.step] at hs
    have : ∃ t, s.threads[i]? = some t := by
      unfold TimerSys.threadStep at hs
      split at hs
      · cases hs
      · exact ⟨_, by assumption⟩
    obtain ⟨t, ht⟩ := this
    have key : ∀ p l f, TimerPhase.pot p < TimerPhase.pot t.phase →
        pot { s with threads := s.threads.set i { t with phase := p }, lock := l, finished := f } < s.pot := by
      intro p l f hp
      have := sum_set s.threads i t { t with phase := p } ht
      simp only [pot]
      simp only at this
      omega
    simp only [TimerSys.threadStep, ht] at hs
    repeat' (split at hs)
    all_goals first
      | cases hs; done
      | (cases hs; refine key _ _ _ ?_; simp_all [TimerPhase.pot])
  | wake i =>
    right
    simp only [TimerSys.step] at hs
    split at hs
    · rename_i t ht
      split at hs
      · rename_i b hb
        cases hs
        have := sum_set s.threads i t { t with phase := .woken b } ht
        simp only [pot, TimerSys.goto]
        have e1 : TimerPhase.pot t.phase = 5 := by rw [hb]; rfl
        have e2 : TimerPhase.pot (TimerPhase.woken b) = 4 := rfl
        simp only at this
        omega
      · cases hs
    · cases hs
  | tick n =>
    simp only [TimerSys.step, Option.some.injEq] at hs
    subst hs
    exact .inl ⟨n, rfl, rfl⟩

/-- The action is not the passing of time. -/
def _root_.Verif.TimerAction.acts : TimerAction → Bool
  | .tick _ => false
  | _ => true

theorem step_dropping {s s' : TimerSys} {a : TimerAction} (hs : s.step a = some s')
    (hd : s.dropping = true) : s'.dropping = true := by
  cases a with
  | start d => simp only [TimerSys.step] at hs; split at hs <;> cases hs <;> exact hd
  | drop => simp only [TimerSys.step] at hs; split at hs <;> cases hs <;> exact hd
  | owner =>
    simp only [TimerSys.step, ownerStep] at hs
    repeat' (split at hs)
    all_goals first | cases hs; done | (cases hs; first | exact hd | rfl)
  | thread i =>
    simp only [TimerSys.step, TimerSys.threadStep] at hs
    repeat' (split at hs)
    all_goals first | cases hs; done | (cases hs; exact hd)
  | wake i =>
    simp only [TimerSys.step] at hs
    repeat' (split at hs)
    all_goals first | cases hs; done | (cases hs; exact hd)
  | tick n => simp only [TimerSys.step, Option.some.injEq] at hs; subst hs; exact hd

theorem exec_pot {as : List TimerAction} : ∀ {s s' : TimerSys} {cs : List (Nat × Nat)}, s.Inv cs →
    s.dropping = true → s.exec as = some s' → (as.filter TimerAction.acts).length + s'.pot ≤ s.pot := by
  induction as with
  | nil =>
    intro s s' cs h hd hs
    simp only [TimerSys.exec, Option.some.injEq] at hs
    subst hs
    simp
  | cons a as ih =>
    intro s s' cs h hd hs
    simp only [TimerSys.exec] at hs
    split at hs
    · rename_i s1 h1
      have := ih (h.step h1) (step_dropping h1 hd) hs
      rcases step_pot h hd h1 with ⟨n, rfl, hp⟩ | hp
      · simp only [List.filter_cons, TimerAction.acts, Bool.false_eq_true, if_false]
        omega
      · have : (List.filter TimerAction.acts (a :: as)).length ≤
            (as.filter TimerAction.acts).length + 1 := by
          rw [List.filter_cons]
          split <;> simp
        omega
    · cases hs

theorem pot_le (s : TimerSys) : s.pot ≤ 5 * s.threads.length + 3 := by
  have h1 : ∀ l : List TimerThread, (l.map fun t => TimerPhase.pot t.phase).sum ≤ 5 * l.length := by
    intro l
    induction l with
    | nil => simp
    | cons x l ih =>
      simp only [List.map_cons, List.sum_cons, List.length_cons]
      have : TimerPhase.pot x.phase ≤ 5 := by cases x.phase <;> simp [TimerPhase.pot]
      omega
  have h2 : OwnerPhase.pot s.owner ≤ 3 := by cases s.owner <;> simp [OwnerPhase.pot]
  have := h1 s.threads
  simp only [pot]
  omega

end TimerSys
end Verif
