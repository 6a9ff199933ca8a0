import Verif.Proofs.Timer
/-!
# C34: the timer
-/

namespace Verif

open TimerSys

/-- A sequence of actions on a fresh timer that leads to `s`. -/
def TimerRun (t0 : Nat) (as : List TimerAction) (s : TimerSys) : Prop :=
  (TimerSys.new t0).exec as = some s

theorem TimerRun.inv {t0 : Nat} {as : List TimerAction} {s : TimerSys} (h : TimerRun t0 as s) :
    s.Inv (startCalls t0 as) := by
  have := (inv_new t0).exec h
  simpa [TimerSys.new] using this

/-- `finished()` is true only if more time than the duration has passed since some call of `start`. -/
theorem C34_not_early {t0 : Nat} {as : List TimerAction} {s : TimerSys} (h : TimerRun t0 as s)
    (hf : s.finished = true) : ∃ c ∈ startCalls t0 as, c.1 + c.2 < s.now := h.inv.fin hf

/-- A timer that was never started never finishes. -/
theorem C34_never {t0 : Nat} {as : List TimerAction} {s : TimerSys} (h : TimerRun t0 as s)
    (hs : ∀ d, TimerAction.start d ∉ as) : s.finished = false := by
  cases hf : s.finished with
  | false => rfl
  | true =>
    obtain ⟨c, hc, _⟩ := C34_not_early h hf
    have : ∀ (as : List TimerAction) (n : Nat), (∀ d, TimerAction.start d ∉ as) → startCalls n as = [] := by
      intro as
      induction as with
      | nil => intro n _; rfl
      | cons a as ih =>
        intro n hn
        have hn' : ∀ d, TimerAction.start d ∉ as := fun d hd => hn d (List.mem_cons_of_mem _ hd)
        cases a with
        | start d => exact absurd List.mem_cons_self (hn d)
        | tick m => exact ih _ hn'
        | drop => exact ih _ hn'
        | owner => exact ih _ hn'
        | thread i => exact ih _ hn'
        | wake i => exact ih _ hn'
    rw [this as t0 hs] at hc
    cases hc

/-- Once finished, always finished. -/
theorem C34_stays {as : List TimerAction} : ∀ {s s' : TimerSys}, s.exec as = some s' →
    s.finished = true → s'.finished = true := by
  induction as with
  | nil =>
    intro s s' hs hf
    simp only [TimerSys.exec, Option.some.injEq] at hs
    exact hs ▸ hf
  | cons a as ih =>
    intro s s' hs hf
    simp only [TimerSys.exec] at hs
    split at hs
    · rename_i s1 h1
      exact ih hs (step_stays h1 hf)
    · cases hs

/-- If the thread of a call of `start` gets to run (two steps), then more time than the duration
passes, then it gets to run again (three steps), and the timer is not dropped in the meantime, the
timer has finished. Whatever the other threads do and however often it wakes up spuriously. -/
theorem C34_fires {t0 : Nat} {as1 as2 bs cs : List TimerAction} {s : TimerSys} {i : Nat}
    {c : Nat × Nat} (h : TimerRun t0 (as1 ++ as2 ++ bs ++ cs) s) (hal : s.owner = .alive)
    (hc1 : (startCalls t0 as1)[i]? = some c) (h2 : 2 ≤ as2.count (.thread i))
    (htime : c.2 < elapsed bs) (hrun' : 3 ≤ cs.count (.thread i)) : s.finished = true := by
  unfold TimerRun at h
  rw [exec_append, exec_append, exec_append] at h
  cases h1 : (TimerSys.new t0).exec as1 with
  | none => simp [h1] at h
  | some s1 =>
    cases h2' : s1.exec as2 with
    | none => simp [h1, h2'] at h
    | some s2 =>
      cases h3 : s2.exec bs with
      | none => simp [h1, h2', h3] at h
      | some s3 =>
        simp only [h1, h2', h3, Option.bind_some] at h
        have ha3 := exec_alive h hal
        have ha2 := exec_alive h3 ha3
        have hi1 : s1.Inv (startCalls t0 as1) := TimerRun.inv h1
        have hi2 := hi1.exec h2'
        have hi3 := hi2.exec h3
        have hi4 := hi3.exec h
        have hlt : i < s1.threads.length := by
          rw [hi1.len]; exact (List.getElem?_eq_some_iff.1 hc1).1
        have ht1 : s1.threads[i]? = some s1.threads[i] := List.getElem?_eq_getElem hlt
        have hdur : s1.threads[i].duration = c.2 := (hi1.thread i _ c ht1 hc1).dur
        obtain ⟨t2, ht2, hd2, hearly⟩ := exec_begins h2' ha2 ht1
        have he0 : TimerPhase.early t2.phase = 0 := by
          have : TimerPhase.early s1.threads[i].phase ≤ 2 := by
            cases s1.threads[i].phase <;> simp [TimerPhase.early]
          omega
        have hdrop2 : s2.dropping = false := by rw [hi2.told, ha2]; rfl
        obtain ⟨c', hc', hti⟩ := hi2.get ht2
        have hbeg : Begun t2 s2.now := by
          unfold Begun
          cases hp : t2.phase with
          | spawned => simp [hp, TimerPhase.early] at he0
          | entered => simp [hp, TimerPhase.early] at he0
          | testing b => exact .inl ⟨b, rfl, (hti.begun b (by rw [hp]; rfl)).2⟩
          | sleeping b => exact .inl ⟨b, rfl, (hti.begun b (by rw [hp]; rfl)).2⟩
          | woken b => exact .inl ⟨b, rfl, (hti.begun b (by rw [hp]; rfl)).2⟩
          | returned r =>
            cases r with
            | true => simp
            | false => exact absurd hp (hti.notEarly hdrop2)
          | leaving => simp
          | ended => simp
        obtain ⟨t3, ht3, hd3, hb3⟩ := exec_begun h3 ha3 hdrop2 ht2 hbeg
        have hlate : Late s3.now t3 := by
          rcases hb3 with ⟨b, hb, hle⟩ | hb3
          · refine .inl ⟨b, hb, ?_⟩
            have := exec_now h3
            omega
          · exact .inr hb3
        obtain ⟨t4, ht4, hl4, hleft⟩ := exec_late hi3 h hal ht3 hlate
        have h0 : TimerPhase.left t4.phase = 0 := by
          have : TimerPhase.left t3.phase ≤ 3 := by
            cases t3.phase <;> simp [TimerPhase.left]
          omega
        obtain ⟨c4, hc4, hti4⟩ := hi4.get ht4
        have hdrop : s.dropping = false := by rw [hi4.told, hal]; rfl
        refine hti4.over hdrop ?_
        rcases hl4 with ⟨b, hb, _⟩ | h' | h' | h'
        · cases hp : t4.phase <;> simp [hp, TimerPhase.begun, TimerPhase.left] at hb h0
        · simp [h', TimerPhase.left] at h0
        · exact .inl h'
        · exact .inr h'

/-- A thread that has not ended and is not asleep can take a step, or it waits for the mutex and
whoever holds the mutex can take a step. -/
theorem C34_unblocked {t0 : Nat} {as : List TimerAction} {s : TimerSys} (h : TimerRun t0 as s) {i : Nat}
    {t : TimerThread} (ht : s.threads[i]? = some t) (hs : ∀ b, t.phase ≠ .sleeping b)
    (he : t.phase ≠ .ended) :
    (∃ s', s.step (.thread i) = some s') ∨ (∃ s', s.step .owner = some s') ∨
      ∃ j s', s.lock = some (.thread j) ∧ s.step (.thread j) = some s' := h.inv.moves ht hs he

/-- Dropping does not block: as long as neither the drop nor any thread can take a step, the drop is
over and all threads have ended. No clock and no spurious wake-up is needed. -/
theorem C34_drop_progress {t0 : Nat} {as : List TimerAction} {s : TimerSys} (h : TimerRun t0 as s)
    (ho : s.owner ≠ .alive) (hown : s.step .owner = none) (hth : ∀ i, s.step (.thread i) = none) :
    s.owner = .dropped ∧ ∀ t ∈ s.threads, t.phase = .ended := by
  have hinv := h.inv
  simp only [TimerSys.step] at hown hth
  have hlock : s.lock = none := by
    cases hl : s.lock with
    | none => rfl
    | some l =>
      rcases hinv.holder hl with ⟨_, s', h'⟩ | ⟨i, _, s', h'⟩
      · rw [hown] at h'; cases h'
      · rw [hth i] at h'; cases h'
  have hphase : s.owner = .dropJoin ∨ s.owner = .dropped := by
    cases hp : s.owner with
    | alive => exact absurd hp ho
    | dropLock => simp [TimerSys.ownerStep, hp, hlock] at hown
    | dropStore => simp [TimerSys.ownerStep, hp] at hown
    | dropUnlock => simp [TimerSys.ownerStep, hp] at hown
    | dropNotify => simp [TimerSys.ownerStep, hp] at hown
    | dropJoin => exact .inl rfl
    | dropped => exact .inr rfl
  have hend : ∀ (i : Nat) (t : TimerThread), s.threads[i]? = some t → t.phase = .ended := by
    intro i t ht
    obtain ⟨c, _, hti⟩ := hinv.get ht
    refine Classical.byContradiction fun hne => ?_
    rcases hinv.moves ht (hti.awake hphase) hne with ⟨s', h'⟩ | ⟨s', h'⟩ | ⟨j, s', _, h'⟩
    · rw [hth i] at h'; cases h'
    · rw [hown] at h'; cases h'
    · rw [hth j] at h'; cases h'
  refine ⟨?_, fun t ht => ?_⟩
  · rcases hphase with hp | hp
    · exfalso
      have hh := hinv.handle
      simp only [TimerSys.ownerStep, hp] at hown
      split at hh
      · simp [hh] at hown
      · rename_i hn
        have hlt : s.threads.length - 1 < s.threads.length := by omega
        have hget : s.threads[s.threads.length - 1]? = some s.threads[s.threads.length - 1] :=
          List.getElem?_eq_getElem hlt
        have := hend _ _ hget
        rw [hh] at hown
        simp only [hget] at hown
        revert hown this
        cases s.threads[s.threads.length - 1] with
        | mk d p => intro h1 h2; simp only at h1; subst h1; simp at h2
    · exact hp
  · obtain ⟨i, hi⟩ := List.getElem?_of_mem ht
    exact hend i t hi

/-- Dropping ends: from the moment the flag is set, only so many steps (of the drop, of the threads,
and wake-ups) are possible, however much time passes or does not pass. -/
theorem C34_drop_bound {t0 : Nat} {as bs : List TimerAction} {s s' : TimerSys} (h : TimerRun t0 as s)
    (hd : s.dropping = true) (h' : s.exec bs = some s') :
    (bs.filter TimerAction.acts).length ≤ 5 * (startCalls t0 as).length + 3 := by
  have h1 := exec_pot h.inv hd h'
  have h2 := pot_le s
  have h3 := h.inv.len
  omega

/-- When the drop is over, the thread of the last call of `start` has ended. -/
theorem C34_joined {t0 : Nat} {as : List TimerAction} {s : TimerSys} (h : TimerRun t0 as s)
    (ho : s.owner = .dropped) (hs : startCalls t0 as ≠ []) :
    ∃ t, s.threads[(startCalls t0 as).length - 1]? = some t ∧ t.phase = .ended := by
  have hinv := h.inv
  have hne : s.threads.length ≠ 0 := by
    rw [hinv.len]
    intro h0
    exact hs (List.length_eq_zero_iff.1 h0)
  have hh := hinv.handle
  rw [if_neg hne] at hh
  obtain ⟨d, hd⟩ := hinv.joined ho _ hh
  rw [hinv.len] at hd
  exact ⟨_, hd, rfl⟩

/-- A run in which the timer fires: it is started with a duration of 20, wakes up spuriously after 10,
goes to sleep again, and reports at 31. -/
def timerFires : List TimerAction :=
  [.start 20, .thread 0, .thread 0, .thread 0, .tick 10, .wake 0, .thread 0, .thread 0,
    .tick 21, .wake 0, .thread 0, .thread 0, .thread 0]

example : ∃ s, TimerRun 0 timerFires s ∧ s.finished = true ∧ s.owner = .alive := by
  refine ⟨_, rfl, ?_⟩
  decide +kernel

/-- The hypotheses of `C34_fires` are met by this run. -/
example : ∃ s, TimerRun 0 (([.start 20] : List TimerAction) ++ [.thread 0, .thread 0, .thread 0] ++
      [.tick 10, .wake 0, .thread 0, .thread 0, .tick 21, .wake 0] ++
      [.thread 0, .thread 0, .thread 0]) s ∧ s.owner = .alive ∧ s.finished = true ∧
    (startCalls 0 [.start 20])[0]? = some (0, 20) := by
  refine ⟨_, rfl, ?_⟩
  decide +kernel

/-- One unit of time earlier it does not fire: it goes back to sleep. -/
example : ∃ s, TimerRun 0 [.start 20, .thread 0, .thread 0, .tick 20, .thread 0] s ∧
    s.finished = false ∧ s.threads = [⟨20, .sleeping 0⟩] := by
  refine ⟨_, rfl, ?_⟩
  decide +kernel

/-- A drop while the thread sleeps: nobody has to wait for the clock. -/
example : ∃ s, TimerRun 0 [.start 20, .thread 0, .thread 0, .thread 0, .drop, .owner, .owner, .owner,
    .owner, .thread 0, .thread 0, .thread 0, .thread 0, .owner] s ∧
    s.owner = .dropped ∧ s.finished = false ∧ s.now = 0 := by
  refine ⟨_, rfl, ?_⟩
  decide +kernel

/-- Starting a timer twice detaches the first thread: the drop can be over while it still runs. -/
theorem C34_detached : ∃ s, TimerRun 0 [.start 5, .start 7, .thread 1, .thread 1, .drop, .thread 1,
    .owner, .owner, .owner, .owner, .thread 1, .thread 1, .thread 1, .thread 1, .owner] s ∧
    s.owner = .dropped ∧ s.threads[0]? = some ⟨5, .spawned⟩ := by
  refine ⟨_, rfl, ?_⟩
  decide +kernel

end Verif
