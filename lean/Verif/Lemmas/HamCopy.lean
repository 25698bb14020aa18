import Verif.Model.Copy
import Verif.Lemmas.HamDel

/-!
# Helper lemmas: copies
-/

set_option autoImplicit false

set_option linter.unusedSectionVars false

namespace Magnopy

open PyDict

theorem PyDict.get?_mapVal {α β γ : Type*} [DecidableEq α] (d : PyDict α β) (f : β → γ) (k : α) :
    get? (List.map (fun p : α × β => (p.1, f p.2)) d) k = (d.get? k).map f := by
  induction d with
  | nil => rfl
  | cons p d ih =>
    obtain ⟨a, v⟩ := p
    simp only [List.map_cons, get?]
    split_ifs
    · rfl
    · exact ih

theorem PyDict.keys_mapVal {α β γ : Type*} (d : PyDict α β) (f : β → γ) :
    keys (List.map (fun p : α × β => (p.1, f p.2)) d) = d.keys := by
  simp [keys, Function.comp_def]

namespace St

variable {K : Type*} [Field K]

theorem copy_cell_old (s : St K) {r : ℕ} (h : r < s.next) : s.copy.cell r = s.cell r := by
  simp [copy, h]

theorem copy_cell_new (s : St K) (r : ℕ) : s.copy.cell (r + s.next) = s.cell r := by
  simp [copy]

theorem copy_valE (s : St K) (b : Bond) : s.copy.valE b = s.valE b := by
  unfold valE
  show Option.map _ (get? (List.map (fun p => (p.1, p.2 + s.next)) s.exch) b) = _
  rw [get?_mapVal s.exch (fun r => r + s.next), Option.map_map]
  congr 1
  funext r
  exact copy_cell_new s r

theorem copy_valO (s : St K) (a : Atom) : s.copy.valO a = s.valO a := by
  unfold valO
  show Option.map _ (get? (List.map (fun p => (p.1, p.2 + s.next)) s.onSite) a) = _
  rw [get?_mapVal s.onSite (fun r => r + s.next), Option.map_map]
  congr 1
  funext r
  exact copy_cell_new s r

theorem copy_keysNodup {s : St K} (h : s.KeysNodup) : s.copy.KeysNodup :=
  ⟨by show (keys (List.map (fun p => (p.1, p.2 + s.next)) s.exch)).Nodup
      rw [keys_mapVal s.exch (fun r => r + s.next)]; exact h.exch,
   by show (keys (List.map (fun p => (p.1, p.2 + s.next)) s.onSite)).Nodup
      rw [keys_mapVal s.onSite (fun r => r + s.next)]; exact h.site⟩

end St
end Magnopy
