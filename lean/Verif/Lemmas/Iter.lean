import Verif.Model.Iter
import Verif.Lemmas.Ham

/-!
# Helper lemmas: iterators
-/

set_option autoImplicit false

set_option linter.unusedSectionVars false

namespace Magnopy

open PyDict

theorem Visits.unique {σ α : Type*} {next : σ → Next σ α} {s : σ} {l l' : List α} {t t' : σ}
    (h : Visits next s l t) (h' : Visits next s l' t') : l = l' ∧ t = t' := by
  induction h generalizing l' t' with
  | stop hs =>
    cases h' with
    | stop => exact ⟨rfl, rfl⟩
    | step hs' _ => rw [hs] at hs'; cases hs'
  | step hs _ ih =>
    cases h' with
    | stop hs' => rw [hs] at hs'; cases hs'
    | step hs' h2 =>
      rw [hs] at hs'
      cases hs'
      obtain ⟨h1, h3⟩ := ih h2
      exact ⟨by rw [h1], h3⟩

namespace DictIter

variable {κ : Type*} [DecidableEq κ]

theorem visits_aux (c : PyDict κ ℕ) (l : List (κ × ℕ)) (hl : ∀ p ∈ l, c.get? p.1 = some p.2) (i n : ℕ)
    (hn : i + l.length = n) :
    Visits next (⟨n, c, l.map Prod.fst, i⟩ : DictIter κ) l ⟨n, c, [], n⟩ := by
  induction l generalizing i with
  | nil =>
    simp at hn
    subst hn
    exact .stop (by simp [next])
  | cons p l ih =>
    rw [List.length_cons] at hn
    refine .step (s' := ⟨n, c, l.map Prod.fst, i + 1⟩) ?_ (ih (fun q hq => hl q (List.mem_cons_of_mem _ hq)) (i + 1) (by omega))
    have h1 : i < n := by omega
    simp [next, h1, hl p (List.mem_cons_self)]

theorem visits (d : PyDict κ ℕ) (hd : d.keys.Nodup) : Visits next (init d) d ⟨List.length d, d, [], List.length d⟩ :=
  visits_aux d d (fun p hp => get?_of_mem hd (k := p.1) (v := p.2) hp) 0 _ (by simp)

end DictIter

namespace LikeIter

variable {K : Type*} [Field K]

/-- The heap after the on-site terms `l` have been scaled. -/
def heap (x : K) : List (Atom × ℕ) → St K → St K
  | [], s => s
  | p :: l, s => heap x l (s.alloc (Param.mulNum (s.cell p.2) x)).1

theorem heap_frame (x : K) (l : List (Atom × ℕ)) (s : St K) :
    (heap x l s).toHam = s.toHam ∧ (heap x l s).next = s.next + l.length ∧
      ∀ q < s.next, (heap x l s).cell q = s.cell q := by
  induction l generalizing s with
  | nil => exact ⟨rfl, rfl, fun _ _ => rfl⟩
  | cons p l ih =>
    obtain ⟨h1, h2, h3⟩ := ih (s.alloc (Param.mulNum (s.cell p.2) x)).1
    refine ⟨h1, ?_, fun q hq => ?_⟩
    · show (heap x l _).next = _
      rw [h2]
      simp [St.alloc]; omega
    · show (heap x l _).cell q = _
      rw [h3 q (by simp [St.alloc]; omega)]
      have : q ≠ s.next := by omega
      simp [St.alloc, this]

/-- The items for the on-site terms. -/
def siteItems (l : List (Atom × ℕ)) (n : ℕ) : List (Bond × ℕ) :=
  match l with
  | [] => []
  | p :: l => ((p.1, p.1, (0, 0, 0)), n) :: siteItems l (n + 1)

theorem siteItems_length (l : List (Atom × ℕ)) (n : ℕ) : (siteItems l n).length = l.length := by
  induction l generalizing n with
  | nil => rfl
  | cons p l ih => simp [siteItems, ih]

theorem siteItems_cells (x : K) (l : List (Atom × ℕ)) (s : St K) (hl : ∀ p ∈ l, p.2 < s.next) :
    (siteItems l s.next).map (fun p => (p.1, (heap x l s).cell p.2)) =
      l.map fun p => ((p.1, p.1, (0, 0, 0)), Param.mulNum (s.cell p.2) x) := by
  induction l generalizing s with
  | nil => rfl
  | cons p l ih =>
    set s' := (s.alloc (Param.mulNum (s.cell p.2) x)).1 with hs'
    have hn : s'.next = s.next + 1 := rfl
    have hc : ∀ q < s.next, s'.cell q = s.cell q := fun q hq => by
      have : q ≠ s.next := by omega
      simp [hs', St.alloc, this]
    have := ih s' (fun q hq => by have := hl q (List.mem_cons_of_mem _ hq); omega)
    simp only [siteItems, List.map_cons, heap]
    rw [← hs', ← hn, this]
    congr 1
    · rw [(heap_frame x l s').2.2 s.next (by omega)]
      simp [hs', St.alloc]
    · apply List.map_congr_left
      intro q hq
      rw [hc q.2 (hl q (List.mem_cons_of_mem _ hq))]

theorem visits_aux2 (s : St K) (x : K) (n1 : ℕ) (c1 : PyDict Atom ℕ) (c2 : PyDict Bond ℕ) (n2 : ℕ)
    (l : List (Bond × ℕ)) (hl : ∀ p ∈ l, c2.get? p.1 = some p.2) (i : ℕ) (hi : n1 ≤ i) (hn : l ≠ [] → 0 < n2) :
    ∃ it', Visits next ((⟨n1, c1, [], i, n2, c2, l.map Prod.fst, 0, x⟩ : LikeIter K), s) l (it', s) := by
  have h1 : ¬ i < n1 := by omega
  induction l generalizing i with
  | nil =>
    refine ⟨_, .stop ?_⟩
    simp only [next, h1, if_false, List.map_nil]
    split_ifs <;> rfl
  | cons p l ih =>
    have h2 : 0 < n2 := hn (by simp)
    obtain ⟨it', h⟩ := ih (fun q hq => hl q (List.mem_cons_of_mem _ hq)) (i + 1) (by omega) (fun _ => h2) (by omega)
    refine ⟨it', .step ?_ h⟩
    simp [next, h1, h2, hl p (List.mem_cons_self)]

theorem visits_aux1 (s : St K) (x : K) (n1 : ℕ) (c1 : PyDict Atom ℕ) (c2 : PyDict Bond ℕ) (n2 : ℕ)
    (l1 : List (Atom × ℕ)) (h1 : ∀ p ∈ l1, c1.get? p.1 = some p.2)
    (l : List (Bond × ℕ)) (hl : ∀ p ∈ l, c2.get? p.1 = some p.2) (hn : l ≠ [] → 0 < n2) (i : ℕ) (hi : i + l1.length = n1) :
    ∃ it', Visits next ((⟨n1, c1, l1.map Prod.fst, i, n2, c2, l.map Prod.fst, 0, x⟩ : LikeIter K), s)
      (siteItems l1 s.next ++ l) (it', heap x l1 s) := by
  induction l1 generalizing i s with
  | nil => exact visits_aux2 s x n1 c1 c2 n2 l hl i (by simp at hi; omega) hn
  | cons p l1 ih =>
    rw [List.length_cons] at hi
    obtain ⟨it', h⟩ := ih (s.alloc (Param.mulNum (s.cell p.2) x)).1 (fun q hq => h1 q (List.mem_cons_of_mem _ hq)) (i + 1) (by omega)
    refine ⟨it', .step ?_ h⟩
    have h2 : i < n1 := by omega
    simp [next, h2, h1 p (List.mem_cons_self), St.alloc]

end LikeIter
end Magnopy
