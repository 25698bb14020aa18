import Verif.Lemmas.MagnonInit
import Verif.Spec.Magnon
import Verif.Props.HamCopy
import Mathlib.LinearAlgebra.Matrix.Hermitian
import Mathlib.Tactic.LinearCombination

/-!
# Helper lemmas: the magnon matrix
-/

set_option autoImplicit false
set_option linter.unusedSectionVars false

namespace Magnopy

open PyDict Matrix Complex

namespace St

variable {K : Type*} [Field K]

theorem isSome_valO_iff {s : St K} {a : Atom} : (s.valO a).isSome ↔ a ∈ s.onSite.keys := by
  rw [valO, Option.isSome_map, isSome_get?_iff]

/-- A sum over the bonds, read from the other end. -/
theorem sum_mirror {M : Type*} [AddCommMonoid M] {t : St K} (hk : t.KeysNodup)
    (hc : ∀ b, t.valE b.mirror = (t.valE b).map Matrix.transpose) (F : Bond × M3 K → M) :
    (t.exchangeItems.map F).sum = (t.exchangeItems.map fun p => F (p.1.mirror, p.2ᵀ)).sum := by
  have key : ∀ G : Bond × M3 K → M, (t.exchangeItems.map G).sum =
      ∑ b ∈ t.exch.keys.toFinset, (t.valE b).elim 0 fun m => G (b, m) := by
    intro G
    unfold exchangeItems
    rw [List.sum_toFinset _ hk.exch, PyDict.keys, List.map_map, List.map_map]
    congr 1
    refine List.map_congr_left fun p hp => ?_
    have : t.exch.get? p.1 = some p.2 := get?_of_mem hk.exch hp
    simp [valE, this]
  have hm : ∀ b ∈ t.exch.keys.toFinset, b.mirror ∈ t.exch.keys.toFinset := by
    intro b hb
    rw [List.mem_toFinset, ← isSome_valE_iff] at hb ⊢
    rw [hc, Option.isSome_map]; exact hb
  rw [key, key]
  refine Finset.sum_bij' (fun b _ => b.mirror) (fun b _ => b.mirror) hm hm (fun b _ => b.mirror_mirror)
    (fun b _ => b.mirror_mirror) fun b _ => ?_
  rw [hc]
  cases t.valE b with
  | none => rfl
  | some m => simp [Bond.mirror_mirror]

end St

namespace MagnonObj

theorem sum_like {M : Type*} [AddCommMonoid M] {t : St ℝ} (hk : t.KeysNodup) (hs : Symmetric t)
    (F : Bond × M3 ℝ → M) : ((likeItems t).map F).sum = ((likeItems t).map fun p => F (p.1.mirror, p.2ᵀ)).sum := by
  unfold likeItems
  rw [List.map_append, List.map_append, List.sum_append, List.sum_append, St.sum_mirror hk hs.mirror F]
  congr 2
  rw [List.map_map, List.map_map]
  refine List.map_congr_left fun p hp => ?_
  unfold St.onSiteItems at hp
  obtain ⟨q, hq, rfl⟩ := List.mem_map.1 hp
  have : t.valO q.1 = some (t.cell q.2) := by
    have := get?_of_mem hk.site (k := q.1) (v := q.2) hq
    simp [St.valO, this]
  simp only [Function.comp, hs.onSite _ _ this]
  rfl

theorem vector_mirror (lat : M3 ℝ) (pos : Atom → V3 ℝ) (b : Bond) : vector lat pos b.mirror = -vector lat pos b := by
  funext c
  simp only [vector, Bond.mirror, EnergyObj.lattice, Fin.sum_univ_three, Pi.neg_apply, Prod.fst_neg, Prod.snd_neg,
    Int.cast_neg]
  ring

theorem phase_neg (k d : V3 ℝ) : phase (-k) (-d) = phase k d := by
  unfold phase
  rw [neg_dotProduct, dotProduct_neg, neg_neg]

theorem phase_conj (k d : V3 ℝ) : star (phase k d) = phase (-k) d := by
  unfold phase
  rw [RCLike.star_def, ← Complex.exp_conj, map_mul, map_neg, Complex.conj_I, Complex.conj_ofReal, neg_dotProduct]
  push_cast
  ring_nf

variable {order : List Atom → List Atom} {lat : M3 ℝ} {pos : Atom → V3 ℝ} {spinVec : Atom → Option (V3 ℝ)}
  {s : St ℝ} {o : MagnonObj} {t : St ℝ} {items : List (Bond × ℕ)}

/-- `J(k)` as a sum over the parameters. -/
theorem ObjSpec.J_eq (h : ObjSpec order lat pos spinVec s o t items) (k : V3 ℝ) (i j : ℕ) :
    o.J t.cell k i j = ((likeItems t).map fun p =>
      if (t.magneticAtoms order).idxOf p.1.1 = i ∧ (t.magneticAtoms order).idxOf p.1.2.1 = j then
        phase k (vector lat pos p.1) • p.2.map ((↑) : ℝ → ℂ) else 0).sum := by
  rw [← h.values, MagnonObj.J, h.bonds, List.map_map, List.map_map]
  rfl

theorem ObjSpec.J_transpose (h : ObjSpec order lat pos spinVec s o t items) (hs : Symmetric t) (k : V3 ℝ) (i j : ℕ) :
    o.J t.cell (-k) j i = (o.J t.cell k i j)ᵀ := by
  rw [h.J_eq, h.J_eq, sum_like h.inv.nodup hs]
  have : ∀ l : List (M3 ℂ), l.sumᵀ = (l.map Matrix.transpose).sum := fun l =>
    Matrix.transpose_list_sum l
  rw [this, List.map_map]
  congr 1
  refine List.map_congr_left fun p _ => ?_
  simp only [Function.comp]
  rw [show p.1.mirror.1 = p.1.2.1 from rfl, show p.1.mirror.2.1 = p.1.1 from rfl, vector_mirror, phase_neg]
  by_cases hc : (t.magneticAtoms order).idxOf p.1.1 = i ∧ (t.magneticAtoms order).idxOf p.1.2.1 = j
  · rw [if_pos hc, if_pos hc.symm]
    ext a b
    rfl
  · rw [if_neg hc, if_neg fun h => hc h.symm, transpose_zero]

theorem J_conj (o : MagnonObj) (cell : ℕ → M3 ℝ) (k : V3 ℝ) (i j : ℕ) : (o.J cell k i j).map star = o.J cell (-k) i j := by
  unfold MagnonObj.J
  have : ∀ l : List (M3 ℂ), l.sum.map star = (l.map fun m => m.map star).sum := by
    intro l
    induction l with
    | nil => ext a b; simp
    | cons m l ih => rw [List.sum_cons, List.map_cons, List.sum_cons, ← ih]; ext a b; simp
  rw [this, List.map_map]
  congr 1
  refine List.map_congr_left fun p _ => ?_
  simp only [Function.comp]
  split_ifs
  · ext a b
    simp only [Matrix.map_apply, Matrix.smul_apply, smul_eq_mul, star_mul', phase_conj]
    simp
  · ext a b; simp

theorem star_bilin (u w : V3 ℂ) (M : M3 ℂ) : star (u ⬝ᵥ (M *ᵥ w)) = star u ⬝ᵥ (M.map star *ᵥ star w) := by
  simp [dotProduct, mulVec, Fin.sum_univ_three]

theorem bilin_transpose (u w : V3 ℂ) (M : M3 ℂ) : u ⬝ᵥ (Mᵀ *ᵥ w) = w ⬝ᵥ (M *ᵥ u) := by
  simp only [dotProduct, mulVec, Fin.sum_univ_three, transpose_apply]
  ring

theorem root_star (o : MagnonObj) (i j : ℕ) : star (o.root i j) = o.root i j := by
  unfold root
  rw [RCLike.star_def, Complex.conj_ofReal]

theorem root_comm (o : MagnonObj) (i j : ℕ) : o.root i j = o.root j i := by
  unfold root
  rw [mul_comm (EnergyObj.norm3 _)]

theorem ObjSpec.A_star (h : ObjSpec order lat pos spinVec s o t items) (hs : Symmetric t) (k : V3 ℝ) (i j : ℕ) :
    star (o.A t.cell k j i) = o.A t.cell k i j := by
  unfold A
  rw [star_mul', root_star, star_bilin, star_star, J_conj, neg_neg, root_comm, ← bilin_transpose,
    ← h.J_transpose hs k j i]

theorem ObjSpec.B_transpose (h : ObjSpec order lat pos spinVec s o t items) (hs : Symmetric t) (k : V3 ℝ) (i j : ℕ) :
    o.B t.cell (-k) j i = o.B t.cell k i j := by
  unfold B
  rw [neg_neg, root_comm, ← bilin_transpose, ← h.J_transpose hs k j i]

/-- The numbers on the diagonal are real. -/
theorem freshC_star (cell : ℕ → M3 ℝ) (hv : o.v = o.S.map vOf) (i j : ℕ) : star (o.freshC cell i j) = o.freshC cell i j := by
  have hr : ∀ l, star (o.v.getD l 0) = o.v.getD l 0 := by
    intro l
    rw [hv]
    by_cases hl : l < o.S.length
    · simp only [List.getD, List.getElem?_map, List.getElem?_eq_getElem hl, Option.map_some, Option.getD_some]
      funext c
      simp [vOf]
    · simp [List.getD, List.getElem?_eq_none (not_lt.1 hl)]
  unfold freshC
  split_ifs
  · rw [star_sum]
    refine Finset.sum_congr rfl fun l _ => ?_
    rw [star_mul', star_bilin, J_conj, neg_zero, hr, hr, RCLike.star_def, Complex.conj_ofReal]
  · simp

/-- `h(k)` of an object whose `C` was not called yet. -/
theorem callH_fresh (cell : ℕ → M3 ℝ) (hC : o.C = none) (k : V3 ℝ) : (o.callH cell k).1 =
    fromBlocks (2 • block o.N (o.A cell k) - 2 • block o.N (o.freshC cell)) (2 • block o.N (o.B cell k))
      (2 • (block o.N (o.B cell k))ᴴ) (2 • (block o.N (o.A cell (-k))).map star - 2 • block o.N (o.freshC cell)) := by
  unfold callH callC
  simp only [hC]

theorem block_star_C (hv : o.v = o.S.map vOf) (cell : ℕ → M3 ℝ) :
    (block o.N (o.freshC cell))ᴴ = block o.N (o.freshC cell) ∧
      (block o.N (o.freshC cell)).map star = block o.N (o.freshC cell) := by
  constructor
  · ext i j
    rw [conjTranspose_apply]
    show star (o.freshC cell j i) = o.freshC cell i j
    rw [freshC_star cell hv]
    unfold freshC
    by_cases hij : (i : ℕ) = j
    · rw [if_pos hij, if_pos hij.symm, hij]
    · rw [if_neg hij, if_neg fun h => hij h.symm]
  · ext i j
    exact freshC_star cell hv i j

end MagnonObj

open MagnonObj

variable {order : List Atom → List Atom} {lat : M3 ℝ} {pos : Atom → V3 ℝ} {spinVec : Atom → Option (V3 ℝ)}
  {s : St ℝ}

/-- Rewriting a Hamiltonian in the notation SpinW for a new object. -/
theorem MagnonReady.renoted {Γ : Type*} [AddCommGroup Γ] [Fintype Γ] {spin : Atom → ℝ}
    (h : MagnonReady order spinVec s spin) :
    ∃ t0, s.copy.setNotation (.str "SpinW") = .ok t0 ∧ St.Renoted Γ spin s.copy t0 := by
  have hwf : s.copy.Paired := by
    have e1 : s.copy.exch.keys = s.exch.keys := keys_mapVal s.exch (fun r => r + s.next)
    have e2 : s.copy.onSite.keys = s.onSite.keys := keys_mapVal s.onSite (fun r => r + s.next)
    have g1 : ∀ b, s.copy.exch.get? b = (s.exch.get? b).map fun r => r + s.next :=
      fun b => get?_mapVal s.exch (fun r => r + s.next) b
    have g2 : ∀ b, s.copy.onSite.get? b = (s.onSite.get? b).map fun r => r + s.next :=
      fun b => get?_mapVal s.onSite (fun r => r + s.next) b
    refine ⟨⟨St.copy_keysNodup h.wf.keys, ⟨?_, ?_⟩, ⟨fun b r hb => ?_, fun b r hb => ?_⟩,
      ⟨fun b b' r hb hb' => ?_, fun b b' r hb hb' => ?_, fun b a r hb hb' => ?_⟩, h.wf.index, ?_⟩, fun hd b => ?_, ?_⟩
    · rw [e1]; exact h.wf.refer.exch
    · rw [e2]; exact h.wf.refer.site
    · rw [g1] at hb
      obtain ⟨q, hq, rfl⟩ := Option.map_eq_some_iff.1 hb
      have := h.wf.alloc.exch b q hq
      show q + s.next < s.next + s.next
      omega
    · rw [g2] at hb
      obtain ⟨q, hq, rfl⟩ := Option.map_eq_some_iff.1 hb
      have := h.wf.alloc.site b q hq
      show q + s.next < s.next + s.next
      omega
    · rw [g1] at hb hb'
      obtain ⟨q, hq, rfl⟩ := Option.map_eq_some_iff.1 hb
      obtain ⟨q', hq', e⟩ := Option.map_eq_some_iff.1 hb'
      have : q' = q := by omega
      exact h.wf.noShare.exch b b' q hq (this ▸ hq')
    · rw [g2] at hb hb'
      obtain ⟨q, hq, rfl⟩ := Option.map_eq_some_iff.1 hb
      obtain ⟨q', hq', e⟩ := Option.map_eq_some_iff.1 hb'
      have : q' = q := by omega
      exact h.wf.noShare.site b b' q hq (this ▸ hq')
    · rw [g1] at hb
      rw [g2] at hb'
      obtain ⟨q, hq, rfl⟩ := Option.map_eq_some_iff.1 hb
      obtain ⟨q', hq', e⟩ := Option.map_eq_some_iff.1 hb'
      have : q' = q := by omega
      exact h.wf.noShare.cross b a q hq (this ▸ hq')
    · rw [e1]; exact h.wf.noSelf
    · rw [St.copy_valE, St.copy_valE]; exact h.wf.twice hd b
    · rw [e1]; exact h.wf.single
  have hsp : s.copy.Spins spin := h.spins
  have hc : s.copy.Complete := h.complete
  obtain ⟨t0, h1, h2, _⟩ := St.setFour_on_renoted (Γ := Γ) hwf hsp two_ne_zero hc false one_ne_zero one_ne_zero
  refine ⟨t0, ?_, h2⟩
  rw [← h1]
  have : "SpinW".toLower = "spinw" := by decide +kernel
  simp [St.setNotation, St.predefined, this]

theorem MagnonReady.inv {spin : Atom → ℝ} (h : MagnonReady order spinVec s spin) : s.Inv := by
  refine ⟨h.wf.keys, h.wf.refer, fun hd b hb => ?_⟩
  rw [← St.isSome_valE_iff] at hb ⊢
  rw [h.wf.twice hd, Option.isSome_map]; exact hb

/-- The constructor succeeds on well-formed Hamiltonians, and its private Hamiltonian has the same energy. -/
theorem MagnonReady.ok {Γ : Type*} [AddCommGroup Γ] [Fintype Γ] {spin : Atom → ℝ}
    (hord : ∀ l, (order l).Perm l) (lat : M3 ℝ) (pos : Atom → V3 ℝ) (h : MagnonReady order spinVec s spin) :
    ∃ o t items, init order lat pos spinVec s = (.ok o, t) ∧ ObjSpec order lat pos spinVec s o t items ∧
      St.Renoted Γ spin s t := by
  obtain ⟨t0, h0, hr⟩ := h.renoted (Γ := Γ)
  obtain ⟨h1, h2, _⟩ := init_spec hord lat pos spinVec h.inv h.wf.alloc h0
  have hmem : ∀ a ∈ t0.magneticAtoms order, (spinVec a).isSome := by
    intro a ha
    refine h.vectors a ?_
    rw [EnergyObj.mem_magneticAtoms hord] at ha ⊢
    have hd : t0.dc = some true := by
      obtain ⟨_, _, _, _, hn, _⟩ := hr.complete
      rcases C08_assign s.copy (.str "SpinW") with ⟨q, hq, hq', hh⟩ | ⟨hh, _⟩
      · rw [h0] at hh
        have e : (true, false, (1 : ℝ), (1 : ℝ)) = q := hq' _ (Or.inr (Or.inr (Or.inl ⟨by decide +kernel, rfl⟩)))
        have := hh rfl
        rw [← e] at this
        exact (St.getNotation_ok_iff.1 this).1
      · exact absurd (Or.inr (Or.inr (Or.inl ⟨by decide +kernel, rfl⟩))) (hh (true, false, 1, 1))
    have hkeep : ∀ b, b ∈ t0.exch.keys → St.keeps b = true → b ∈ s.exch.keys ∨ b.mirror ∈ s.exch.keys := by
      intro b hb hk
      have h1 := hr.pairE b
      obtain ⟨d, n, e, o, hn, _⟩ := hr.complete
      obtain ⟨d', n', e', o', hn', _⟩ := h.complete
      rw [St.pairE_eq hr.wf hn, St.pairE_one (s := s.copy) (show s.copy.getNotation = _ from hn'), if_pos hk, if_pos hk,
        show s.copy.oneE b = s.oneE b by unfold St.oneE; rw [St.copy_valE, St.copy_valE]] at h1
      rw [← St.isSome_valE_iff] at hb
      rw [← St.isSome_oneE_iff]
      have := congrArg Option.isSome h1
      rw [Option.isSome_map, Option.isSome_map] at this
      rw [← this]; exact hb
    have hE : ∀ b, b ∈ t0.exch.keys → b ∈ s.exch.keys ∨ b.mirror ∈ s.exch.keys := by
      intro b hb
      by_cases hk : St.keeps b = true
      · exact hkeep b hb hk
      · have hm : b.mirror ∈ t0.exch.keys := by
          rw [← St.isSome_valE_iff] at hb ⊢
          rw [hr.wf.twice hd, Option.isSome_map]; exact hb
        refine (Bond.mirror_mirror b ▸ hkeep _ hm ?_).symm
        rw [keeps_mirror (hr.wf.noSelf b hb) (hr.wf.index _ (hr.wf.refer.exch b hb).1 _ (hr.wf.refer.exch b hb).2)]
        simpa using hk
    rcases ha with ⟨b, hb, hab⟩ | ha
    · left
      rcases hE b hb with hb' | hb'
      · exact ⟨b, hb', hab⟩
      · exact ⟨_, hb', hab.symm⟩
    · right
      have h1 := hr.siteE a
      obtain ⟨d, n, e, o, hn, _⟩ := hr.complete
      obtain ⟨d', n', e', o', hn', _⟩ := h.complete
      rw [St.siteE_eq hn, St.siteE_eq (s := s.copy) (show s.copy.getNotation = _ from hn'), St.copy_valO] at h1
      have := congrArg Option.isSome h1
      rw [Option.isSome_map, Option.isSome_map] at this
      rw [← St.isSome_valO_iff] at ha ⊢
      rw [← this]; exact ha
  obtain ⟨o, t, h3⟩ := h2 hmem
  obtain ⟨items, h4⟩ := h1 o t h3
  refine ⟨o, t, items, h3, h4, ?_⟩
  obtain ⟨t0', h0', f1, f2, f3⟩ := h4.ham
  have : t0' = t0 := by
    have := h0'.symm.trans h0
    exact congrArg Res.st this
  subst this
  have hwf : t.WellFormed := by
    refine ⟨⟨h4.inv.nodup, h4.inv.refer, h4.alloc, hr.wf.noShare.congr f1, ?_, ?_⟩, fun hd b => ?_, ?_⟩
    · rw [(congrArg Ham.atoms f1 :)]; exact hr.wf.index
    · rw [(congrArg Ham.exch f1 :)]; exact hr.wf.noSelf
    · rw [f2, f2]; exact hr.wf.twice (by rw [← (congrArg Ham.dc f1 :)]; exact hd) b
    · rw [(congrArg Ham.exch f1 :), (congrArg Ham.dc f1 :)]; exact hr.wf.once
  have hn : t.getNotation = t0'.getNotation := by
    unfold St.getNotation
    rw [(congrArg Ham.dc f1 :), (congrArg Ham.sn f1 :), (congrArg Ham.ef f1 :), (congrArg Ham.osf f1 :)]
  have hc : s.copy.exchangeItems = s.exchangeItems ∧ s.copy.onSiteItems = s.onSiteItems :=
    ⟨St.exchangeItems_ext h.wf.keys (St.copy_keysNodup h.wf.keys) (keys_mapVal s.exch (fun r => r + s.next)) (St.copy_valE s),
     by
      have := C54_equal s h.wf.keys h.wf.alloc true
      exact this.2.1⟩
  refine ⟨hwf, ?_, ?_, (congrArg Ham.atoms f1 :).trans hr.atoms, fun b => ?_, fun a => ?_, fun c => ?_⟩
  · unfold St.Spins
    rw [(congrArg Ham.atoms f1 :), (congrArg Ham.spin f1 :)]
    exact hr.spins
  · unfold St.Complete
    rw [hn]; exact hr.complete
  · have e1 : t.pairE spin b = t0'.pairE spin b := by unfold St.pairE St.oneE; rw [hn, f2, f2]
    have e2 : s.copy.pairE spin b = s.pairE spin b := by
      unfold St.pairE St.oneE; rw [show s.copy.getNotation = s.getNotation from rfl, St.copy_valE, St.copy_valE]
    rw [e1, hr.pairE b, e2]
  · have e1 : t.siteE spin a = t0'.siteE spin a := by unfold St.siteE; rw [hn, f3]
    have e2 : s.copy.siteE spin a = s.siteE spin a := by
      unfold St.siteE; rw [show s.copy.getNotation = s.getNotation from rfl, St.copy_valO]
    rw [e1, hr.siteE a, e2]
  · have e1 : t.physics c spin = t0'.physics c spin := by
      unfold St.physics St.energy
      rw [hn, St.exchangeItems_ext hr.wf.keys hwf.keys (congrArg (fun x => PyDict.keys x.exch) f1) f2,
        St.onSiteItems_ext hr.wf.keys hwf.keys (congrArg Ham.onSite f1 :) f3]
    have e2 : s.copy.physics c spin = s.physics c spin := by
      unfold St.physics St.energy
      rw [show s.copy.getNotation = s.getNotation from rfl, hc.1, hc.2]
    rw [e1, hr.physics c, e2]

/-- Symmetry of the user's Hamiltonian carries over to the private one. -/
theorem St.Renoted.symmetric {Γ : Type*} [AddCommGroup Γ] [Fintype Γ] {spin : Atom → ℝ} {s t : St ℝ}
    (h : St.Renoted Γ spin s t) (hc : s.Complete) (hs : s.OnSiteSymmetric) (hd : t.dc = some true) :
    MagnonObj.Symmetric t := by
  refine ⟨h.wf.twice hd, fun a m hm => ?_⟩
  have h1 := h.siteE a
  obtain ⟨d, n, e, o, hn, _, ho⟩ := h.complete
  obtain ⟨d', n', e', o', hn', _⟩ := hc
  rw [St.siteE_eq hn, St.siteE_eq hn', hm, Option.map_some] at h1
  obtain ⟨m', hm', e⟩ := Option.map_eq_some_iff.1 h1.symm
  have hat : a ∈ t.atoms := h.wf.refer.site a (by rw [← St.isSome_valO_iff, hm]; rfl)
  have hw : o * (weight n spin a * weight n spin a) ≠ 0 := by
    have := St.weight_ne h.spins hat n
    exact mul_ne_zero ho (mul_ne_zero this this)
  have := congrArg Matrix.transpose e
  rw [transpose_smul, hs a m' hm', e, transpose_smul] at this
  exact (smul_right_injective _ hw this).symm

end Magnopy
