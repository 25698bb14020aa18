import Mathlib.Data.List.Basic
import Mathlib.Data.List.Nodup
import Mathlib.Data.List.Perm.Basic

/-!
# Python dictionaries

A `dict` is an association list in insertion order.  Assignment to an existing key keeps the
position of the key; deletion keeps the order of the others.
-/

set_option autoImplicit false

namespace Magnopy

/-- An insertion ordered Python `dict`. -/
abbrev PyDict (α β : Type*) := List (α × β)

namespace PyDict

variable {α β : Type*} [DecidableEq α]

/-- `d[k]` / `k in d`: `none` stands for a missing key. -/
def get? : PyDict α β → α → Option β
  | [], _ => none
  | (k', v) :: d, k => if k' = k then some v else get? d k

/-- `d[k] = v`. -/
def set : PyDict α β → α → β → PyDict α β
  | [], k, v => [(k, v)]
  | (k', v') :: d, k, v => if k' = k then (k', v) :: d else (k', v') :: set d k v

/-- `del d[k]` for a key that is present (no change otherwise; the caller raises `KeyError`). -/
def del : PyDict α β → α → PyDict α β
  | [], _ => []
  | (k', v') :: d, k => if k' = k then d else (k', v') :: del d k

/-- `list(d)`. -/
def keys (d : PyDict α β) : List α := d.map Prod.fst

/-- `list(d.values())`. -/
def values (d : PyDict α β) : List β := d.map Prod.snd

omit [DecidableEq α] in
@[simp] theorem keys_nil : keys ([] : PyDict α β) = [] := rfl
omit [DecidableEq α] in
@[simp] theorem keys_cons (p : α × β) (d : PyDict α β) : keys (p :: d) = p.1 :: keys d := rfl

theorem get?_eq_none_iff {d : PyDict α β} {k : α} : get? d k = none ↔ k ∉ keys d := by
  induction d with
  | nil => simp [get?]
  | cons p d ih =>
    obtain ⟨k', v⟩ := p
    by_cases h : k' = k
    · simp [get?, h]
    · have : k ≠ k' := fun e => h e.symm
      simp [get?, h, ih, this]

theorem isSome_get?_iff {d : PyDict α β} {k : α} : (get? d k).isSome ↔ k ∈ keys d := by
  rw [← not_iff_not, Bool.not_eq_true, Option.isSome_eq_false_iff, Option.isNone_iff_eq_none,
    get?_eq_none_iff]

theorem mem_keys_iff {d : PyDict α β} {k : α} : k ∈ keys d ↔ ∃ v, get? d k = some v := by
  rw [← isSome_get?_iff, Option.isSome_iff_exists]

theorem mem_of_get? {d : PyDict α β} {k : α} {v : β} (h : get? d k = some v) : (k, v) ∈ d := by
  induction d with
  | nil => simp [get?] at h
  | cons p d ih =>
    obtain ⟨k', v'⟩ := p
    by_cases hk : k' = k
    · simp [get?, hk] at h; simp [hk, h]
    · simp [get?, hk] at h; exact List.mem_cons_of_mem _ (ih h)

theorem get?_of_mem {d : PyDict α β} (hd : (keys d).Nodup) {k : α} {v : β} (h : (k, v) ∈ d) :
    get? d k = some v := by
  induction d with
  | nil => simp at h
  | cons p d ih =>
    obtain ⟨k', v'⟩ := p
    rw [keys_cons, List.nodup_cons] at hd
    rcases List.mem_cons.1 h with h | h
    · cases h; simp [get?]
    · have hk : k' ≠ k := by
        rintro rfl; exact hd.1 (List.mem_map.2 ⟨_, h, rfl⟩)
      simp [get?, hk, ih hd.2 h]

theorem mem_iff_get? {d : PyDict α β} (hd : (keys d).Nodup) {k : α} {v : β} :
    (k, v) ∈ d ↔ get? d k = some v := ⟨get?_of_mem hd, mem_of_get?⟩

theorem get?_set (d : PyDict α β) (k k' : α) (v : β) :
    get? (set d k v) k' = if k = k' then some v else get? d k' := by
  induction d with
  | nil => simp [set, get?]
  | cons p d ih =>
    obtain ⟨a, b⟩ := p
    by_cases h : a = k
    · subst h
      by_cases h2 : a = k' <;> simp [set, get?, h2]
    · by_cases h2 : a = k'
      · subst h2
        have : k ≠ a := fun e => h e.symm
        simp [set, get?, h, this]
      · simp [set, get?, h, h2, ih]

@[simp] theorem get?_set_self (d : PyDict α β) (k : α) (v : β) : get? (set d k v) k = some v := by
  simp [get?_set]

theorem keys_set_of_mem {d : PyDict α β} {k : α} (h : k ∈ keys d) (v : β) :
    keys (set d k v) = keys d := by
  induction d with
  | nil => simp at h
  | cons p d ih =>
    obtain ⟨a, b⟩ := p
    by_cases hk : a = k
    · simp [set, hk]
    · have : k ∈ keys d := by
        rcases List.mem_cons.1 h with h | h
        · exact absurd h.symm hk
        · exact h
      simp [set, hk, ih this]

theorem keys_set_of_notMem {d : PyDict α β} {k : α} (h : k ∉ keys d) (v : β) :
    keys (set d k v) = keys d ++ [k] := by
  induction d with
  | nil => simp [set]
  | cons p d ih =>
    obtain ⟨a, b⟩ := p
    rw [keys_cons, List.mem_cons, not_or] at h
    have : a ≠ k := fun e => h.1 e.symm
    simp [set, this, ih h.2]

theorem mem_keys_set {d : PyDict α β} {k k' : α} {v : β} :
    k' ∈ keys (set d k v) ↔ k' = k ∨ k' ∈ keys d := by
  rw [← isSome_get?_iff, get?_set, ← isSome_get?_iff]
  by_cases h : k = k'
  · simp [h]
  · have : k' ≠ k := fun e => h e.symm
    simp [h, this]

theorem nodup_set {d : PyDict α β} (hd : (keys d).Nodup) (k : α) (v : β) :
    (keys (set d k v)).Nodup := by
  by_cases h : k ∈ keys d
  · rw [keys_set_of_mem h]; exact hd
  · rw [keys_set_of_notMem h]
    exact List.Nodup.append hd (List.nodup_singleton k) (by simpa using h)

theorem keys_del (d : PyDict α β) (k : α) : keys (del d k) = (keys d).erase k := by
  induction d with
  | nil => simp [del]
  | cons p d ih =>
    obtain ⟨a, b⟩ := p
    by_cases h : a = k
    · simp [del, h]
    · simp [del, h, ih]

theorem nodup_del {d : PyDict α β} (hd : (keys d).Nodup) (k : α) : (keys (del d k)).Nodup := by
  rw [keys_del]; exact hd.erase k

theorem mem_keys_del {d : PyDict α β} (hd : (keys d).Nodup) {k k' : α} :
    k' ∈ keys (del d k) ↔ k' ≠ k ∧ k' ∈ keys d := by
  rw [keys_del, hd.mem_erase_iff]

theorem del_sublist (d : PyDict α β) (k : α) : (del d k).Sublist d := by
  induction d with
  | nil => simp [del]
  | cons p d ih =>
    obtain ⟨a, b⟩ := p
    by_cases h : a = k
    · simp [del, h]
    · simp only [del, h, if_false]; exact ih.cons_cons _

theorem get?_del {d : PyDict α β} (hd : (keys d).Nodup) (k k' : α) :
    get? (del d k) k' = if k = k' then none else get? d k' := by
  by_cases h : k = k'
  · subst h
    rw [if_pos rfl, get?_eq_none_iff, mem_keys_del hd]
    simp
  · rw [if_neg h]
    cases hv : get? d k' with
    | none =>
      rw [get?_eq_none_iff, mem_keys_del hd]
      rw [get?_eq_none_iff] at hv
      exact fun h => hv h.2
    | some v =>
      clear hd
      induction d with
      | nil => simp [get?] at hv
      | cons p d ih =>
        obtain ⟨a, b⟩ := p
        by_cases ha : a = k
        · subst ha
          simp only [get?, h, if_false] at hv
          simp [del, hv]
        · by_cases hb : a = k'
          · subst hb
            simp only [get?, if_true] at hv
            simp [del, ha, get?, hv]
          · simp only [get?, hb, if_false] at hv
            simp [del, ha, get?, hb, ih hv]

theorem del_of_notMem {d : PyDict α β} {k : α} (h : k ∉ keys d) : del d k = d := by
  induction d with
  | nil => rfl
  | cons p d ih =>
    obtain ⟨a, b⟩ := p
    rw [keys_cons, List.mem_cons, not_or] at h
    have : a ≠ k := fun e => h.1 e.symm
    simp [del, this, ih h.2]

theorem get?_append (d e : PyDict α β) (k : α) :
    get? (d ++ e) k = (get? d k).or (get? e k) := by
  induction d with
  | nil => simp [get?]
  | cons p d ih =>
    obtain ⟨a, b⟩ := p
    by_cases h : a = k <;> simp [get?, h, ih]

end PyDict
end Magnopy
