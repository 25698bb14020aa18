import Verif.Lemmas.Axes
import Verif.Lemmas.Similar
import Verif.Lemmas.Describe
import Verif.Props.Goldstone

/-!
# Helper lemmas: two magnon objects
-/

set_option autoImplicit false
set_option linter.unusedSectionVars false

namespace Magnopy

open PyDict Matrix Complex MagnonObj

/-! ### Couplings and values -/

theorem sum_key {κ : Type*} [DecidableEq κ] (d : PyDict κ ℕ) (h : d.keys.Nodup) (c : ℕ → M3 ℝ) (k : κ) :
    (d.map fun p => if p.1 = k then c p.2 else 0).sum = ((d.get? k).map c).getD 0 := by
  induction d with
  | nil => rfl
  | cons p d ih =>
    obtain ⟨q, r⟩ := p
    have h' : q ∉ keys d ∧ (keys d).Nodup := by simpa [keys] using h
    rw [List.map_cons, List.sum_cons, ih h'.2]
    by_cases hq : q = k
    · subst hq
      have : get? d q = none := by
        by_contra hne
        exact h'.1 (mem_keys_iff.2 (Option.ne_none_iff_exists'.1 hne))
      rw [this, if_pos rfl]
      simp [get?]
    · rw [if_neg hq, zero_add]
      simp [get?, hq]

/-- The coupling of a bond from the stored values. -/
theorem couple_val {t : St ℝ} (hk : t.KeysNodup) (b : Bond) :
    couple (likeItems t) b = (if b = (b.1, b.1, (0, 0, 0)) then (t.valO b.1).getD 0 else 0) + (t.valE b).getD 0 := by
  unfold couple likeItems
  rw [List.map_append, List.sum_append]
  congr 1
  · rw [List.map_map]
    by_cases hb : b = (b.1, b.1, (0, 0, 0))
    · rw [if_pos hb, St.valO, ← sum_key _ hk.site, St.onSiteItems, List.map_map]
      congr 1
      refine List.map_congr_left fun p _ => ?_
      simp only [Function.comp]
      rw [hb]
      by_cases hp : p.1 = b.1
      · rw [if_pos hp, if_pos (by rw [hp])]
      · rw [if_neg hp, if_neg fun e => hp (by simpa using congrArg Prod.fst e)]
    · rw [if_neg hb]
      refine List.sum_eq_zero fun x hx => ?_
      obtain ⟨p, _, rfl⟩ := List.mem_map.1 hx
      simp only [Function.comp]
      refine if_neg fun e => hb ?_
      rw [← e]
  · rw [St.valE, ← sum_key _ hk.exch, St.exchangeItems, List.map_map]
    rfl

/-! ### Lists of magnetic atoms -/

theorem magneticAtoms_mem {order : List Atom → List Atom} (hord : ∀ l, (order l).Perm l) {s : St ℝ} (hs : s.Sound) {a : Atom}
    (ha : a ∈ s.magneticAtoms order) : a ∈ s.atoms := by
  rw [EnergyObj.mem_magneticAtoms hord] at ha
  rcases ha with ⟨b, hb, rfl | rfl⟩ | ha
  · exact (hs.refer.exch b hb).1
  · exact (hs.refer.exch b hb).2
  · exact hs.refer.site a ha

theorem magneticAtoms_same {order order' : List Atom → List Atom} (hord : ∀ l, (order l).Perm l) (hord' : ∀ l, (order' l).Perm l)
    {s s' : St ℝ} (hs : s.Sound) (h : ∀ a, a ∈ s'.magneticAtoms order' ↔ a ∈ s.magneticAtoms order) :
    s'.magneticAtoms order' = s.magneticAtoms order := by
  have hperm : (s'.magneticAtoms order').Perm (s.magneticAtoms order) :=
    (List.perm_ext_iff_of_nodup (St.magneticAtoms_nodup hord' s') (St.magneticAtoms_nodup hord s)).2 h
  have hsort : ∀ (o : List Atom → List Atom) (u : St ℝ), (u.magneticAtoms o).Pairwise fun a b => a.index ≤ b.index := by
    intro o u
    unfold St.magneticAtoms
    have : Std.Total fun a b : Atom => a.index ≤ b.index := ⟨fun a b => le_total a.index b.index⟩
    have : IsTrans Atom fun a b => a.index ≤ b.index := ⟨fun a b c => le_trans⟩
    exact List.pairwise_insertionSort _ _
  refine hperm.eq_of_pairwise ?_ (hsort _ _) (hsort _ _)
  intro a b ha hb h1 h2
  exact hs.index a (magneticAtoms_mem hord hs ((h a).1 ha)) b (magneticAtoms_mem hord hs hb) (le_antisymm h1 h2)

/-! ### Two objects -/

variable {order order' : List Atom → List Atom} {lat lat' : M3 ℝ} {pos pos' : Atom → V3 ℝ}
  {spinVec spinVec' : Atom → Option (V3 ℝ)} {s s' : St ℝ} {o o' : MagnonObj} {t t' : St ℝ} {items items' : List (Bond × ℕ)}

theorem ready_setup (hord : ∀ l, (order l).Perm l) (lat : M3 ℝ) (pos : Atom → V3 ℝ) {spin : Atom → ℝ}
    (hr : MagnonReady order spinVec s spin) :
    ∃ o t items, init order lat pos spinVec s = (.ok o, t) ∧ ObjSpec order lat pos spinVec s o t items ∧
      St.Renoted Unit spin s t ∧ t.magneticAtoms order = s.magneticAtoms order ∧
      ∀ (Γ : Type) [AddCommGroup Γ] [Fintype Γ] (c : Config ℝ Γ), t.physics c spin = s.physics c spin := by
  obtain ⟨o, t, items, h1, h2, h3⟩ := hr.ok (Γ := Unit) hord lat pos
  refine ⟨o, t, items, h1, h2, h3, h3.magneticAtoms (order := order) hord hr.wf hr.complete, ?_⟩
  intro Γ _ _ c
  obtain ⟨o', t', items', h1', _, h3'⟩ := hr.ok (Γ := Γ) hord lat pos
  rw [h1] at h1'
  simp only [Prod.mk.injEq, Except.ok.injEq] at h1'
  obtain ⟨_, rfl⟩ := h1'
  exact h3'.physics c

theorem axes_at (h : ObjSpec order lat pos spinVec s o t items) (hord : ∀ l, (order l).Perm l) (i : Fin o.N) :
    ∃ v, spinVec (atomAt o (t.magneticAtoms order) i) = some v ∧ o.S.getD i 0 = v ∧ o.u.getD i 0 = uOf v ∧ o.v.getD i 0 = vOf v := by
  obtain ⟨sv, hsv, hS⟩ := h.S
  have hget := atomAt_get h hord i
  refine ⟨_, hsv _ (atomAt_mem h hord i), ?_, ?_, ?_⟩
  · rw [hS]; simp [List.getD, hget]
  · rw [h.u, hS]; simp [List.getD, hget]
  · rw [h.v, hS]; simp [List.getD, hget]

/-- Axes of the two objects, from the axes of each atom. -/
theorem sameAxes {f : Description} {e : Fin o.N ≃ Fin o'.N} (hQ : f.turnᵀ * f.turn = 1)
    (h : ObjSpec order lat pos spinVec s o t items) (hord : ∀ l, (order l).Perm l)
    (h' : ObjSpec order' lat' pos' spinVec' s' o' t' items') (hord' : ∀ l, (order' l).Perm l)
    (hm : f.Moves (t.magneticAtoms order) lat lat' pos pos' spinVec spinVec')
    (he : ∀ i, atomAt o' (t'.magneticAtoms order') (e i) = f.name (atomAt o (t.magneticAtoms order) i))
    (ha : ∀ a ∈ t.magneticAtoms order, ∀ v, spinVec a = some v →
      (∃ z : ℂ, z * star z = 1 ∧ uOf (f.turn *ᵥ v) = z • (cmat f.turn *ᵥ uOf v)) ∧ vOf (f.turn *ᵥ v) = cmat f.turn *ᵥ vOf v) :
    ∃ z, SameAxes f o o' e z := by
  have hex : ∀ i : Fin o.N, ∃ z : ℂ, z * star z = 1 ∧ EnergyObj.norm3 (o'.S.getD (e i) 0) = EnergyObj.norm3 (o.S.getD i 0) ∧
      o'.u.getD (e i) 0 = z • (cmat f.turn *ᵥ o.u.getD i 0) ∧ o'.v.getD (e i) 0 = cmat f.turn *ᵥ o.v.getD i 0 := by
    intro i
    obtain ⟨v, hv, e1, e2, e3⟩ := axes_at h hord i
    obtain ⟨v', hv', e1', e2', e3'⟩ := axes_at h' hord' (e i)
    rw [he, hm.vectors _ (atomAt_mem h hord i), hv] at hv'
    simp only [Option.map_some, Option.some.injEq] at hv'
    subst hv'
    obtain ⟨⟨z, hz, hu⟩, hvv⟩ := ha _ (atomAt_mem h hord i) v hv
    exact ⟨z, hz, by rw [e1, e1', norm3_turn hQ], by rw [e2, e2', hu], by rw [e3, e3', hvv]⟩
  choose z hz using hex
  exact ⟨z, fun i => (hz i).1, fun i => (hz i).2.1, fun i => (hz i).2.2.1, fun i => (hz i).2.2.2⟩

/-- Axes of the two objects if the spins are not turned. -/
theorem sameAxes_one {f : Description} {e : Fin o.N ≃ Fin o'.N} (hQ : f.turn = 1)
    (h : ObjSpec order lat pos spinVec s o t items) (hord : ∀ l, (order l).Perm l)
    (h' : ObjSpec order' lat' pos' spinVec' s' o' t' items') (hord' : ∀ l, (order' l).Perm l)
    (hm : f.Moves (t.magneticAtoms order) lat lat' pos pos' spinVec spinVec')
    (he : ∀ i, atomAt o' (t'.magneticAtoms order') (e i) = f.name (atomAt o (t.magneticAtoms order) i)) :
    SameAxes f o o' e fun _ => 1 := by
  have hex : ∀ i : Fin o.N, EnergyObj.norm3 (o'.S.getD (e i) 0) = EnergyObj.norm3 (o.S.getD i 0) ∧
      o'.u.getD (e i) 0 = o.u.getD i 0 ∧ o'.v.getD (e i) 0 = o.v.getD i 0 := by
    intro i
    obtain ⟨v, hv, e1, e2, e3⟩ := axes_at h hord i
    obtain ⟨v', hv', e1', e2', e3'⟩ := axes_at h' hord' (e i)
    rw [he, hm.vectors _ (atomAt_mem h hord i), hv, hQ] at hv'
    simp only [Option.map_some, Option.some.injEq, one_mulVec] at hv'
    subst hv'
    exact ⟨by rw [e1, e1'], by rw [e2, e2'], by rw [e3, e3']⟩
  refine ⟨fun i => by simp, fun i => (hex i).1, fun i => ?_, fun i => ?_⟩
  · rw [(hex i).2.1, hQ, cmat_one, one_mulVec, one_smul]
  · rw [(hex i).2.2, hQ, cmat_one, one_mulVec]

/-- Equal matrices give equal arrays. -/
theorem omegaOf_cast {N N' : ℕ} (hN : N' = N) {D : Mat N} {D' : Mat N'}
    (solve : ∀ n, Mat n → Option ((Fin n ⊕ Fin n → ℂ) × Mat n)) (junk : ∀ n, Mat n) (z r im : Bool)
    (h : ∀ i j, D' (Sum.map (Fin.cast hN.symm) (Fin.cast hN.symm) i) (Sum.map (Fin.cast hN.symm) (Fin.cast hN.symm) j) = D i j) :
    (omegaOf (solve N') (junk N') z r im D').1 = (omegaOf (solve N) (junk N) z r im D).1 := by
  subst hN
  have : D' = D := by
    ext i j
    rw [← h]
    congr 1 <;> rcases i with i | i <;> rcases j with j | j <;> rfl
  rw [this]

end Magnopy
