import Verif.Model.Basic
import Mathlib.Data.List.Nodup
/-!
# Facts about association lists
-/

namespace Verif
namespace AMap

variable {β : Type}

/-- The keys. -/
def keys (m : AMap β) : List Nat := m.map (·.1)

@[simp] theorem get_nil (k : Nat) : get ([] : AMap β) k = none := rfl

theorem get_erase (m : AMap β) (k k' : Nat) :
    get (erase m k) k' = if k' = k then none else get m k' := by
  induction m with
  | nil => simp [erase]
  | cons e m ih =>
    obtain ⟨a, v⟩ := e
    simp only [erase]
    by_cases h : a = k
    · simp only [h, ↓reduceIte, ih, get]
      by_cases h' : k' = k
      · simp [h']
      · simp [h', show ¬ k = k' from fun e => h' e.symm]
    · simp only [h, ↓reduceIte, get, ih]
      by_cases h2 : a = k'
      · subst h2; simp [h]
      · simp [h2]

theorem get_insert (m : AMap β) (k k' : Nat) (v : β) :
    get (insert m k v) k' = if k' = k then some v else get m k' := by
  simp only [insert, get, get_erase]
  by_cases h : k = k'
  · simp [h]
  · simp [h, show ¬ k' = k from fun e => h e.symm]

theorem mem_of_get {m : AMap β} {k : Nat} {v : β} (h : get m k = some v) : (k, v) ∈ m := by
  induction m with
  | nil => simp at h
  | cons e m ih =>
    obtain ⟨a, w⟩ := e
    simp only [get] at h
    split at h
    · rename_i ha; simp only [Option.some.injEq] at h; simp [ha, h]
    · simp [ih h]

theorem get_of_mem {m : AMap β} (hm : (keys m).Nodup) {k : Nat} {v : β} (h : (k, v) ∈ m) :
    get m k = some v := by
  induction m with
  | nil => simp at h
  | cons e m ih =>
    obtain ⟨a, w⟩ := e
    simp only [keys, List.map_cons, List.nodup_cons] at hm
    simp only [List.mem_cons, Prod.mk.injEq] at h
    simp only [get]
    rcases h with ⟨rfl, rfl⟩ | h
    · simp
    · have : a ≠ k := by
        rintro rfl
        exact hm.1 (List.mem_map.2 ⟨_, h, rfl⟩)
      simp [this, ih hm.2 h]

theorem mem_keys_iff {m : AMap β} {k : Nat} : k ∈ keys m ↔ get m k ≠ none := by
  induction m with
  | nil => simp [keys]
  | cons e m ih =>
    obtain ⟨a, w⟩ := e
    simp only [keys, List.map_cons, List.mem_cons, get] at ih ⊢
    by_cases h : a = k
    · simp [h]
    · simp only [h, ↓reduceIte, ← ih, or_iff_right_iff_imp]
      rintro rfl; exact (h rfl).elim

theorem keys_erase (m : AMap β) (k : Nat) : keys (erase m k) = (keys m).filter (· ≠ k) := by
  induction m with
  | nil => simp [erase, keys]
  | cons e m ih =>
    obtain ⟨a, w⟩ := e
    simp only [erase, keys, List.map_cons] at ih ⊢
    by_cases h : a = k
    · simp [h, ih]
    · simp [h, ih]

theorem nodup_erase {m : AMap β} (h : (keys m).Nodup) (k : Nat) : (keys (erase m k)).Nodup := by
  rw [keys_erase]; exact h.filter _

theorem nodup_insert {m : AMap β} (h : (keys m).Nodup) (k : Nat) (v : β) :
    (keys (insert m k v)).Nodup := by
  have : keys (insert m k v) = k :: keys (erase m k) := rfl
  rw [this, List.nodup_cons]
  refine ⟨?_, nodup_erase h k⟩
  rw [keys_erase]; simp

theorem isEmpty_iff {m : AMap β} : m.isEmpty = true ↔ ∀ k, get m k = none := by
  cases m with
  | nil => simp
  | cons e m =>
    obtain ⟨a, w⟩ := e
    simp only [List.isEmpty_cons, Bool.false_eq_true, false_iff, not_forall]
    exact ⟨a, by simp [get]⟩

end AMap
end Verif
