import Verif.Spec.Invariants
import Mathlib.Data.List.ProdSigma
import Mathlib.Algebra.BigOperators.Group.List.Basic
import Mathlib.LinearAlgebra.Matrix.Notation

/-!
# Helper lemmas about the Hamiltonian model
-/

set_option autoImplicit false

set_option linter.unusedSectionVars false

namespace Magnopy

open PyDict

theorem Bond.mirror_mirror (b : Bond) : b.mirror.mirror = b := by
  obtain ⟨a, c, i, j, k⟩ := b
  simp [Bond.mirror]

theorem Bond.mirror_injective : Function.Injective Bond.mirror := fun a b h => by
  rw [← a.mirror_mirror, h, b.mirror_mirror]

theorem Bond.mirror_eq_iff {a b : Bond} : a.mirror = b ↔ a = b.mirror :=
  ⟨fun h => by rw [← h, a.mirror_mirror], fun h => by rw [h, b.mirror_mirror]⟩

/-- A loop whose body never raises (on states satisfying an invariant) is a fold. -/
theorem forEach_eq_foldl {σ α : Type*} {body : α → σ → Res σ} {f : σ → α → σ} {P : σ → Prop}
    (xs : List α) (h : ∀ x ∈ xs, ∀ s, P s → body x s = .ok (f s x) ∧ P (f s x)) (s : σ) (hs : P s) :
    forEach xs body s = .ok (xs.foldl f s) ∧ P (xs.foldl f s) := by
  induction xs generalizing s with
  | nil => exact ⟨rfl, hs⟩
  | cons x xs ih =>
    have hx := h x (by simp) s hs
    simp only [forEach, hx.1, Res.ok_andThen, List.foldl_cons]
    exact ih (fun y hy => h y (by simp [hy])) _ hx.2

theorem forEach_append {σ α : Type*} (xs ys : List α) (body : α → σ → Res σ) (s : σ) :
    forEach (xs ++ ys) body s = (forEach xs body s).andThen (forEach ys body) := by
  induction xs generalizing s with
  | nil => rfl
  | cons x xs ih =>
    simp only [List.cons_append, forEach]
    rcases h : body x s with ⟨t, _ | e⟩
    · simp [Res.andThen, ih]
    · simp [Res.andThen]

namespace St

variable {K : Type*} [Field K]

/-! ### Scaling loops -/

theorem imulBond_toHam (c : Bond → St K → Except PyErr K) (b : Bond) (s : St K) :
    (imulBond c b s).st.toHam = s.toHam ∧ (imulBond c b s).st.next = s.next := by
  unfold imulBond
  split
  · exact ⟨rfl, rfl⟩
  · split <;> exact ⟨rfl, rfl⟩

theorem imulSite_toHam (c : Atom → St K → Except PyErr K) (a : Atom) (s : St K) :
    (imulSite c a s).st.toHam = s.toHam ∧ (imulSite c a s).st.next = s.next := by
  unfold imulSite
  split
  · exact ⟨rfl, rfl⟩
  · split <;> exact ⟨rfl, rfl⟩

theorem scaleExch_toHam (c : Bond → St K → Except PyErr K) (s : St K) :
    (scaleExch c s).st.toHam = s.toHam ∧ (scaleExch c s).st.next = s.next :=
  forEach_inv (P := fun t : St K => t.toHam = s.toHam ∧ t.next = s.next)
    (fun b t h => ⟨(imulBond_toHam c b t).1.trans h.1, (imulBond_toHam c b t).2.trans h.2⟩) _ _ ⟨rfl, rfl⟩

theorem scaleSite_toHam (c : Atom → St K → Except PyErr K) (s : St K) :
    (scaleSite c s).st.toHam = s.toHam ∧ (scaleSite c s).st.next = s.next :=
  forEach_inv (P := fun t : St K => t.toHam = s.toHam ∧ t.next = s.next)
    (fun b t h => ⟨(imulSite_toHam c b t).1.trans h.1, (imulSite_toHam c b t).2.trans h.2⟩) _ _ ⟨rfl, rfl⟩

/-- One step of a successful scaling loop. -/
def wr {α : Type*} (x : α → K) (t : St K) (p : α × ℕ) : St K := t.write p.2 (x p.1 • t.cell p.2)

theorem foldl_wr_frame {α : Type*} (x : α → K) (l : List (α × ℕ)) (s : St K) :
    (l.foldl (wr x) s).toHam = s.toHam ∧ (l.foldl (wr x) s).next = s.next := by
  induction l generalizing s with
  | nil => exact ⟨rfl, rfl⟩
  | cons p l ih => exact ⟨(ih _).1, (ih _).2⟩

/-- Effect of the loop on one object: it is multiplied once for every key under which it is stored. -/
theorem foldl_wr_cell {α : Type*} (x : α → K) (l : List (α × ℕ)) (s : St K) (r : ℕ) :
    (l.foldl (wr x) s).cell r =
      ((l.filter fun p => p.2 = r).map fun p => x p.1).prod • s.cell r := by
  induction l generalizing s with
  | nil => simp
  | cons p l ih =>
    rw [List.foldl_cons, ih]
    by_cases h : p.2 = r
    · subst h
      simp [wr, write, smul_smul, mul_comm]
    · have : r ≠ p.2 := fun e => h e.symm
      simp [wr, write, h, this]

theorem foldl_keys {α β σ : Type*} (f : σ → α → σ) (d : List (α × β)) (s : σ) :
    (d.map Prod.fst).foldl f s = d.foldl (fun t p => f t p.1) s := by
  rw [List.foldl_map]

theorem scaleExch_ok {c : Bond → St K → Except PyErr K} {s : St K} (hn : s.exch.keys.Nodup)
    (x : Bond → K) (hc : ∀ b ∈ s.exch.keys, ∀ t : St K, t.toHam = s.toHam → c b t = .ok (x b)) :
    scaleExch c s = .ok (s.exch.foldl (wr x) s) := by
  have := forEach_eq_foldl (body := imulBond c) (P := fun t : St K => t.toHam = s.toHam)
    (f := fun t b => match s.exch.get? b with | some r => wr x t (b, r) | none => t)
    s.exch.keys (fun b hb t ht => by
      obtain ⟨r, hr⟩ := PyDict.mem_keys_iff.1 hb
      have e : t.exch = s.exch := congrArg Ham.exch ht
      refine ⟨?_, ?_⟩
      · simp [imulBond, e, hr, hc b hb t ht, wr]
      · simp only [hr]; exact ht) s rfl
  rw [scaleExch, this.1, keys, foldl_keys]
  congr 1
  have hsub : ∀ d : List (Bond × ℕ), (∀ p ∈ d, p ∈ s.exch) → ∀ t : St K,
      d.foldl (fun t p => match s.exch.get? p.1 with | some r => wr x t (p.1, r) | none => t) t =
        d.foldl (wr x) t := by
    intro d
    induction d with
    | nil => intro _ t; rfl
    | cons p d ih =>
      intro h t
      have hp : s.exch.get? p.1 = some p.2 := PyDict.get?_of_mem hn (h p (by simp))
      simp only [List.foldl_cons, hp]
      exact ih (fun q hq => h q (by simp [hq])) _
  exact hsub _ (fun _ h => h) _

theorem scaleSite_ok {c : Atom → St K → Except PyErr K} {s : St K} (hn : s.onSite.keys.Nodup)
    (x : Atom → K) (hc : ∀ a ∈ s.onSite.keys, ∀ t : St K, t.toHam = s.toHam → c a t = .ok (x a)) :
    scaleSite c s = .ok (s.onSite.foldl (wr x) s) := by
  have := forEach_eq_foldl (body := imulSite c) (P := fun t : St K => t.toHam = s.toHam)
    (f := fun t b => match s.onSite.get? b with | some r => wr x t (b, r) | none => t)
    s.onSite.keys (fun b hb t ht => by
      obtain ⟨r, hr⟩ := PyDict.mem_keys_iff.1 hb
      have e : t.onSite = s.onSite := congrArg Ham.onSite ht
      refine ⟨?_, ?_⟩
      · simp [imulSite, e, hr, hc b hb t ht, wr]
      · simp only [hr]; exact ht) s rfl
  rw [scaleSite, this.1, keys, foldl_keys]
  congr 1
  have hsub : ∀ d : List (Atom × ℕ), (∀ p ∈ d, p ∈ s.onSite) → ∀ t : St K,
      d.foldl (fun t p => match s.onSite.get? p.1 with | some r => wr x t (p.1, r) | none => t) t =
        d.foldl (wr x) t := by
    intro d
    induction d with
    | nil => intro _ t; rfl
    | cons p d ih =>
      intro h t
      have hp : s.onSite.get? p.1 = some p.2 := PyDict.get?_of_mem hn (h p (by simp))
      simp only [List.foldl_cons, hp]
      exact ih (fun q hq => h q (by simp [hq])) _
  exact hsub _ (fun _ h => h) _

/-- Entries of a dictionary that hold a given object, when no object is stored twice. -/
theorem filter_ref {α : Type*} [DecidableEq α] {d : PyDict α ℕ} (hn : d.keys.Nodup)
    (hs : ∀ b b' r, d.get? b = some r → d.get? b' = some r → b = b') {b : α} {r : ℕ}
    (h : d.get? b = some r) : (d.filter fun p => p.2 = r) = [(b, r)] := by
  induction d with
  | nil => simp [get?] at h
  | cons p d ih =>
    obtain ⟨a, q⟩ := p
    have hn' := hn
    rw [keys_cons, List.nodup_cons] at hn
    by_cases hab : a = b
    · subst hab
      have hq : q = r := by simpa [get?] using h
      subst hq
      have : (d.filter fun p => p.2 = q) = [] := by
        rw [List.filter_eq_nil_iff]
        rintro ⟨b', q'⟩ hm
        simp only [decide_eq_true_eq]
        rintro rfl
        have e := hs b' a q' (PyDict.get?_of_mem hn' (List.mem_cons_of_mem _ hm)) (by simp [get?])
        subst e
        exact hn.1 (List.mem_map.2 ⟨_, hm, rfl⟩)
      simp [this]
    · have h' : get? d b = some r := by simpa [get?, hab] using h
      have hqr : q ≠ r := by
        rintro rfl
        exact hab (hs a b q (by simp [get?]) h)
      have hs' : ∀ b b' r, get? d b = some r → get? d b' = some r → b = b' := by
        intro b1 b2 r1 h1 h2
        have l1 := PyDict.get?_of_mem hn' (List.mem_cons_of_mem _ (mem_of_get? h1))
        have l2 := PyDict.get?_of_mem hn' (List.mem_cons_of_mem _ (mem_of_get? h2))
        exact hs b1 b2 r1 l1 l2
      simp [hqr, ih hn.2 hs' h']

theorem filter_ref_nil {α : Type*} [DecidableEq α] {d : PyDict α ℕ} (hn : d.keys.Nodup) {r : ℕ}
    (h : ∀ b, d.get? b ≠ some r) : (d.filter fun p => p.2 = r) = [] := by
  rw [List.filter_eq_nil_iff]
  rintro ⟨b, q⟩ hm
  simp only [decide_eq_true_eq]
  rintro rfl
  exact h b (PyDict.get?_of_mem hn hm)

/-- Observable effect of a successful exchange loop without sharing. -/
theorem foldl_wr_exch {s : St K} (hk : s.KeysNodup) (hs : s.NoShare) (x : Bond → K) :
    (∀ b, (s.exch.foldl (wr x) s).valE b = (s.valE b).map fun m => x b • m) ∧
      (∀ a, (s.exch.foldl (wr x) s).valO a = s.valO a) := by
  have hf := foldl_wr_frame x s.exch s
  have e1 : (s.exch.foldl (wr x) s).exch = s.exch := congrArg Ham.exch hf.1
  have e2 : (s.exch.foldl (wr x) s).onSite = s.onSite := congrArg Ham.onSite hf.1
  constructor
  · intro b
    unfold valE
    rw [e1]
    cases h : s.exch.get? b with
    | none => simp
    | some r => simp [foldl_wr_cell, filter_ref hk.exch hs.exch h]
  · intro a
    unfold valO
    rw [e2]
    cases h : s.onSite.get? a with
    | none => simp
    | some r =>
      simp [foldl_wr_cell, filter_ref_nil hk.exch (fun b hb => hs.cross b a r hb h)]

theorem foldl_wr_site {s : St K} (hk : s.KeysNodup) (hs : s.NoShare) (x : Atom → K) :
    (∀ a, (s.onSite.foldl (wr x) s).valO a = (s.valO a).map fun m => x a • m) ∧
      (∀ b, (s.onSite.foldl (wr x) s).valE b = s.valE b) := by
  have hf := foldl_wr_frame x s.onSite s
  have e1 : (s.onSite.foldl (wr x) s).exch = s.exch := congrArg Ham.exch hf.1
  have e2 : (s.onSite.foldl (wr x) s).onSite = s.onSite := congrArg Ham.onSite hf.1
  constructor
  · intro b
    unfold valO
    rw [e2]
    cases h : s.onSite.get? b with
    | none => simp
    | some r => simp [foldl_wr_cell, filter_ref hk.site hs.site h]
  · intro a
    unfold valE
    rw [e1]
    cases h : s.exch.get? a with
    | none => simp
    | some r =>
      simp [foldl_wr_cell, filter_ref_nil hk.site (fun b hb => hs.cross a b r h hb)]

/-- States with the same Hamiltonian record share all key invariants. -/
theorem KeysNodup.congr {s t : St K} (h : t.toHam = s.toHam) (hs : s.KeysNodup) : t.KeysNodup := by
  have e1 : t.exch = s.exch := congrArg Ham.exch h
  have e2 : t.onSite = s.onSite := congrArg Ham.onSite h
  exact ⟨by rw [e1]; exact hs.exch, by rw [e2]; exact hs.site⟩

theorem NoShare.congr {s t : St K} (h : t.toHam = s.toHam) (hs : s.NoShare) : t.NoShare := by
  have e1 : t.exch = s.exch := congrArg Ham.exch h
  have e2 : t.onSite = s.onSite := congrArg Ham.onSite h
  exact ⟨by rw [e1]; exact hs.exch, by rw [e2]; exact hs.site, by rw [e1, e2]; exact hs.cross⟩

theorem Alloc.congr {s t : St K} (h : t.toHam = s.toHam) (hn : t.next = s.next) (hs : s.Alloc) :
    t.Alloc := by
  have e1 : t.exch = s.exch := congrArg Ham.exch h
  have e2 : t.onSite = s.onSite := congrArg Ham.onSite h
  exact ⟨by rw [e1, hn]; exact hs.exch, by rw [e2, hn]; exact hs.site⟩

end St
end Magnopy
