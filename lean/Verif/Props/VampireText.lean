import Verif.Lemmas.VampireText
import Verif.Lemmas.HistorySample
import Verif.Props.Vampire
import Verif.Props.Logo

/-!
# Property C81: the text of the .UCF file
-/

set_option autoImplicit false
set_option linter.unusedSectionVars false

namespace Magnopy

open Vampire
open History (NumFmt joinLines Reads)

section
variable {K : Type} [Field K] [LinearOrder K] {F : NumFmt K} {float : Str → Option K}

theorem Vampire.ucfText_ok {env : Logo.Env} {geo : Geometry K} {order : List Atom → List Atom} {energy : K} {mask : Mask K}
    {decimals : ℕ} {materials : Option (List ℤ)} {nologo : Bool} {s t : St K} {text : Str}
    (h : ucfText F env geo order energy mask decimals materials nologo s = (.ok text, t)) :
    ∃ u l, dumpUcf order energy mask materials s = (.ok u, t) ∧ logoLines env nologo = .ok l ∧
      text = joinLines (l ++ ucfLines F geo decimals u) := by
  rw [ucfText] at h
  split at h
  · simp at h
  · rename_i u t' hu
    split at h
    · simp at h
    · rename_i l hl
      simp only [Prod.mk.injEq, Except.ok.injEq] at h
      obtain ⟨h1, rfl⟩ := h
      exact ⟨u, l, hu, hl, h1.symm⟩

theorem Vampire.dumpUcf_materials {order : List Atom → List Atom} {energy : K} {mask : Mask K} {materials : Option (List ℤ)}
    {s t : St K} {u : Ucf K} (h : dumpUcf order energy mask materials s = (.ok u, t)) :
    u.nMaterials = (materialsOf materials (s.magneticAtoms order).length).toFinset.card := by
  rw [dumpUcf] at h
  split at h
  · simp at h
  · simp only at h
    split at h
    · simp at h
    · split at h
      · simp at h
      · split at h
        · simp at h
        · split at h
          · simp at h
          · split at h
            · simp at h
            · split at h
              · simp at h
              · simp only [Prod.mk.injEq, Except.ok.injEq] at h
                rw [← h.1, List.card_toFinset]

theorem Vampire.materials_card (materials : Option (List ℤ)) (n : ℕ) :
    (materialsOf materials n).toFinset.card = match materials with
      | none => n
      | some m => m.toFinset.card := by
  cases materials with
  | some m => rfl
  | none =>
    rw [materialsOf, List.toFinset_card_of_nodup]
    · simp
    · exact List.nodup_range.map fun a b h => by simpa using h

/-- **C81, the text.** What `dump_ucf` writes is read (comments and blank lines skipped) as an .UCF file with the cell and the
positions to eight digits, the magnetic atoms in their order with their materials, and one line for every ordered pair with a
stored bond and for every on-site term, with the indices of the two atoms, the cell and the nine numbers of its matrix in the
convention of Vampire (C53) to `decimals + 1` significant digits.  The Hamiltonian stays, up to the orientation of bonds that are
counted once (C53_turned). -/
theorem C81_text_partial (hF : Reads F float) (h2 : (2 : K) ≠ 0) (env : Logo.Env) (henv : ∀ x ∈ env.standard true, '\n' ∉ x)
    (geo : Geometry K) (order : List Atom → List Atom) (hord : ∀ l, (order l).Perm l) (energy : K) (mask : Mask K)
    (decimals : ℕ) (materials : Option (List ℤ)) (nologo : Bool) (sp : Atom → K) (s : St K) (hs : s.Paired)
    (hsp : s.Spins sp) (d n : Bool) (e o : K) (hn : s.getNotation = .ok (d, n, e, o)) (he : e ≠ 0) (ho : o ≠ 0)
    (hm : ∀ m, materials = some m → (s.magneticAtoms order).length ≤ m.length) :
    ∃ text t f, ucfText F env geo order energy mask decimals materials nologo s = (.ok text, t) ∧ TurnedHam s t ∧
      readUcf float text = some f ∧ (∀ c, Near (f.size c) (geo.size c)) ∧ (∀ i j, Near (f.vectors i j) (geo.vectors i j)) ∧
      f.nMaterials = (match materials with
        | none => (s.magneticAtoms order).length
        | some m => m.toFinset.card) ∧
      f.atoms.length = (s.magneticAtoms order).length ∧
      (∀ (k : ℕ) a, (s.magneticAtoms order)[k]? = some a → ∃ p, f.atoms[k]? = some (k, p, match materials with
          | none => (k : ℤ)
          | some m => (m[(k : ℕ)]?).getD 0) ∧ ∀ c, Near (p c) (geo.position a c)) ∧
      ∃ items : List (Bond × M3 K), f.bonds.length = items.length ∧
        (∀ (k : ℕ) b J, items[k]? = some (b, J) → ∃ l, f.bonds[k]? = some l ∧ l.iid = k ∧
          (s.magneticAtoms order)[l.i]? = some b.1 ∧ (s.magneticAtoms order)[l.j]? = some b.2.1 ∧ l.cell = b.2.2 ∧
          ∀ i j, NearSig decimals (l.matrix i j) ((energy • mask.apply J) i j)) ∧
        (items.map Prod.fst).Nodup ∧
        (∀ b, b ∈ items.map Prod.fst ↔
          (b ∈ s.exch.keys ∨ b.mirror ∈ s.exch.keys) ∨ ∃ a ∈ s.onSite.keys, b = (a, a, (0, 0, 0))) ∧
        (∀ b J, (b, J) ∈ items → (b ∈ s.exch.keys ∨ b.mirror ∈ s.exch.keys) → J = s.vampireBond n e sp b) ∧
        (∀ a A J, s.valO a = some A → ((a, a, (0, 0, 0)), J) ∈ items →
          J = -(o * (weight n sp a * weight n sp a) / 2) • A) := by
  obtain ⟨u, t, hu, hsame, -⟩ := C53_turned h2 order hord energy mask materials sp s hs hsp ⟨d, n, e, o, hn, he, ho⟩ hm
  obtain ⟨hat, items, hl, hnd, hmem, hE, hO⟩ :=
    C53_lines_partial h2 order hord energy mask materials sp s hs hsp d n e o hn he ho hm u t hu
  obtain ⟨l, hlogo, hw⟩ := logo_words (nologo := nologo) henv
  have hwords := hw (ucfLines F geo decimals u) (ucfLines_noBreak hF geo decimals u) (by simp [ucfLines])
  rw [ucf_words hF] at hwords
  have hread := readUcf_words hF geo decimals u _ hwords (by rw [hl.count, hl.length])
  refine ⟨_, t, _, ?_, hsame, hread, fun c => fix_near hF _, fun i j => fix_near hF _, ?_, ?_, fun k a hk => ?_, items, ?_,
    fun k b J hk => ?_, hnd, hmem, hE, hO⟩
  · rw [ucfText, hu]
    simp only [hlogo]
  · rw [dumpUcf_materials hu, materials_card]
    cases materials <;> rfl
  · rw [List.length_map, hat.1]
  · refine ⟨_, ?_, fun c => fix_near hF (geo.position a c)⟩
    rw [List.getElem?_map, hat.2 k a hk]
    cases materials <;> rfl
  · rw [List.length_map, hl.length]
  · obtain ⟨q, hq, h3, h4, h5, h6, h7⟩ := hl.line k b J hk
    refine ⟨⟨q.iid, q.i, q.j, q.cell, fun i j => sig hF decimals (q.matrix i j)⟩, by rw [List.getElem?_map, hq]; rfl,
      h3, h4, h5, h6, fun i j => ?_⟩
    rw [← h7]
    exact sig_near hF decimals _

variable [IsStrictOrderedRing K]

theorem Vampire.bilin_near {x y : V3 K} {d : ℕ} {M N : M3 K} (h : ∀ i j, NearSig d (M i j) (N i j)) :
    |bilin x M y - bilin x N y| * (2 * 10 ^ d) ≤ bilin (fun i => |x i|) (fun i j => |N i j|) fun i => |y i| := by
  have hp : (0 : K) ≤ 2 * 10 ^ d := by positivity
  have e : bilin x M y - bilin x N y = ∑ i, ∑ j, x i * (M i j - N i j) * y j := by
    simp only [bilin, dotProduct, Matrix.mulVec, Finset.mul_sum, ← Finset.sum_sub_distrib]
    refine Finset.sum_congr rfl fun i _ => Finset.sum_congr rfl fun j _ => by ring
  have e2 : bilin (fun i => |x i|) (fun i j => |N i j|) (fun i => |y i|) = ∑ i, ∑ j, |x i| * |N i j| * |y j| := by
    simp only [bilin, dotProduct, Matrix.mulVec, Finset.mul_sum]
  rw [e, e2]
  calc |∑ i, ∑ j, x i * (M i j - N i j) * y j| * (2 * 10 ^ d)
      ≤ (∑ i, ∑ j, |x i * (M i j - N i j) * y j|) * (2 * 10 ^ d) :=
        mul_le_mul_of_nonneg_right ((Finset.abs_sum_le_sum_abs _ _).trans
          (Finset.sum_le_sum fun i _ => Finset.abs_sum_le_sum_abs _ _)) hp
    _ = ∑ i, ∑ j, |x i| * (|M i j - N i j| * (2 * 10 ^ d)) * |y j| := by
        rw [Finset.sum_mul]
        refine Finset.sum_congr rfl fun i _ => ?_
        rw [Finset.sum_mul]
        refine Finset.sum_congr rfl fun j _ => ?_
        rw [abs_mul, abs_mul]; ring
    _ ≤ ∑ i, ∑ j, |x i| * |N i j| * |y j| :=
        Finset.sum_le_sum fun i _ => Finset.sum_le_sum fun j _ =>
          mul_le_mul_of_nonneg_right (mul_le_mul_of_nonneg_left (h i j) (abs_nonneg _)) (abs_nonneg _)

theorem Vampire.bond_near {Γ : Type} [AddCommGroup Γ] [Fintype Γ] (c : Config K Γ) (b : Bond) {d : ℕ} {M N : M3 K}
    (h : ∀ i j, NearSig d (M i j) (N i j)) :
    |c.bond b M - c.bond b N| * (2 * 10 ^ d) ≤ (absConfig c).bond b fun i j => |N i j| := by
  have hp : (0 : K) ≤ 2 * 10 ^ d := by positivity
  unfold Config.bond
  rw [← Finset.sum_sub_distrib]
  calc |∑ n, (bilin (c.σ b.1 n) M (c.σ b.2.1 (n + c.τ b.2.2)) - bilin (c.σ b.1 n) N (c.σ b.2.1 (n + c.τ b.2.2)))| * (2 * 10 ^ d)
      ≤ (∑ n, |bilin (c.σ b.1 n) M (c.σ b.2.1 (n + c.τ b.2.2)) - bilin (c.σ b.1 n) N (c.σ b.2.1 (n + c.τ b.2.2))|) * (2 * 10 ^ d) :=
        mul_le_mul_of_nonneg_right (Finset.abs_sum_le_sum_abs _ _) hp
    _ = ∑ n, |bilin (c.σ b.1 n) M (c.σ b.2.1 (n + c.τ b.2.2)) - bilin (c.σ b.1 n) N (c.σ b.2.1 (n + c.τ b.2.2))| * (2 * 10 ^ d) :=
        Finset.sum_mul _ _ _
    _ ≤ _ := Finset.sum_le_sum fun n _ => bilin_near h

/-- **C81, the energy.** With the default mask the energy that Vampire computes from the text, in every supercell and for every
configuration, differs from `ENERGY` times exchange energy plus a quarter of the on-site energy (C61) by at most half of
`10 ^ (-decimals)` of the sum of the absolute values of all terms. -/
theorem C81_energy_partial (hF : Reads F float) (env : Logo.Env) (henv : ∀ x ∈ env.standard true, '\n' ∉ x)
    (geo : Geometry K) {Γ : Type} [AddCommGroup Γ] [Fintype Γ] (order : List Atom → List Atom) (hord : ∀ l, (order l).Perm l)
    (energy : K) (henergy : energy ≠ 0) (mask : Mask K) (hmask : mask.all)
    (decimals : ℕ) (materials : Option (List ℤ)) (nologo : Bool) (sp : Atom → K) (s : St K) (hs : s.Paired)
    (hsp : s.Spins sp) (d n : Bool) (e o : K) (hn : s.getNotation = .ok (d, n, e, o)) (he : e ≠ 0) (ho : o ≠ 0)
    (hm : ∀ m, materials = some m → (s.magneticAtoms order).length ≤ m.length) (c : Config K Γ) :
    ∃ text t f u, ucfText F env geo order energy mask decimals materials nologo s = (.ok text, t) ∧
      dumpUcf order energy mask materials s = (.ok u, t) ∧
      readUcf float text = some f ∧
      |f.energy (s.magneticAtoms order) c -
          energy * (e * c.bonds (weight n sp) s.exchangeItems + o * c.sites (weight n sp) s.onSiteItems / 4)| * (2 * 10 ^ decimals) ≤
        1 / 2 * (u.lines.map fun l =>
          bondSum (s.magneticAtoms order) (absConfig c) { l with matrix := fun i j => |l.matrix i j| }).sum := by
  have h2 : (2 : K) ≠ 0 := two_ne_zero
  obtain ⟨u, t, hu, hsame, -⟩ := C53_turned h2 order hord energy mask materials sp s hs hsp ⟨d, n, e, o, hn, he, ho⟩ hm
  obtain ⟨hat, items, hl, -⟩ :=
    C53_lines_partial h2 order hord energy mask materials sp s hs hsp d n e o hn he ho hm u t hu
  obtain ⟨l, hlogo, hw⟩ := logo_words (nologo := nologo) henv
  have hwords := hw (ucfLines F geo decimals u) (ucfLines_noBreak hF geo decimals u) (by simp [ucfLines])
  rw [ucf_words hF] at hwords
  have hread := readUcf_words hF geo decimals u _ hwords (by rw [hl.count, hl.length])
  refine ⟨_, t, _, u, by rw [ucfText, hu]; simp only [hlogo], hu, hread, ?_⟩
  have hp : (0 : K) ≤ 2 * 10 ^ decimals := by positivity
  rw [← (C61_energy_partial h2 three_ne_zero order hord energy henergy mask hmask materials sp s hs hsp d n e o hn he ho hm u t
    hu c).1, UcfFile.energy, Ucf.energy, ← mul_sub, abs_mul, abs_neg, abs_of_pos (by norm_num : (0 : K) < 1 / 2), mul_assoc]
  refine mul_le_mul_of_nonneg_left ?_ (by norm_num)
  simp only [List.map_map]
  have hatoms : ∀ (k : ℕ), (u.atoms[k]?).map (fun q => q.2.1) = (s.magneticAtoms order)[k]? := by
    intro k
    cases hk : (s.magneticAtoms order)[k]? with
    | some a => rw [hat.2 k a hk]; rfl
    | none =>
      rw [List.getElem?_eq_none_iff] at hk
      rw [List.getElem?_eq_none (by rw [hat.1]; exact hk)]; rfl
  have hsum : ∀ q : Line K, u.lineSum c q = bondSum (s.magneticAtoms order) c q := by
    intro q
    rw [Ucf.lineSum, bondSum, ← hatoms q.i, ← hatoms q.j]
    cases u.atoms[q.i]? <;> cases u.atoms[q.j]? <;> rfl
  have hkey : ∀ ls : List (Line K),
      |(ls.map (bondSum (s.magneticAtoms order) c ∘ fun l => (⟨l.iid, l.i, l.j, l.cell, fun i j => sig hF decimals (l.matrix i j)⟩ : Line K))).sum -
        (ls.map (u.lineSum c)).sum| * (2 * 10 ^ decimals) ≤ (ls.map fun l =>
          bondSum (s.magneticAtoms order) (absConfig c) { l with matrix := fun i j => |l.matrix i j| }).sum := by
    intro ls
    induction ls with
    | nil => simp
    | cons q ls ih =>
      simp only [List.map_cons, List.sum_cons, Function.comp]
      rw [add_sub_add_comm]
      refine (mul_le_mul_of_nonneg_right (abs_add_le _ _) hp).trans ?_
      rw [add_mul]
      refine add_le_add ?_ ih
      rw [hsum]
      simp only [bondSum]
      cases (s.magneticAtoms order)[q.i]? with
      | none => simp
      | some a =>
        cases (s.magneticAtoms order)[q.j]? with
        | none => simp
        | some b => exact bond_near c _ fun i j => sig_near hF decimals _
  exact hkey u.lines

end

/-! ### Examples -/

namespace VampireTextExample

open VampireExample HistoryExample DictExample NotationExample IterExample
open History (decimal sciOf decimal_reads)

/-- A cell with two atoms. -/
def geo : Geometry ℚ := ⟨![3, 3, 5 / 2], !![3, 0, 0; 0, 3, 0; 0, 0, 5 / 2], fun _ => ![1 / 3, 0, 1 / 2]⟩

/-- The hypotheses of C81 hold for the Hamiltonian of C53 and ordinary decimal notation; the text is read with five interactions
and two materials. -/
example : ∃ text t f, ucfText decimal Logo.env geo id 2 full 3 (some [1, 0]) false s1 = (.ok text, t) ∧
    readUcf (sciOf (K := ℚ)) text = some f ∧ f.atoms.length = 2 ∧ f.nMaterials = 2 ∧
    (∀ b, b ∈ s1.exch.keys → ∃ l ∈ f.bonds, l.cell = b.2.2) := by
  obtain ⟨text, t, f, h1, -, h2, -, -, h5, h6, -, items, -, h8, -, h9, -⟩ := C81_text_partial (K := ℚ) decimal_reads two_ne_zero
    Logo.env (by decide) geo id (fun _ => List.Perm.refl _) 2 full 3 (some [1, 0]) false (fun _ => 5 / 2) s1 s1_wf.1.paired s1_wf.2
    true true (-1) (-1) (by decide +kernel) (by norm_num) (by norm_num) (fun m hm => by cases hm; decide +kernel)
  refine ⟨text, t, f, h1, h2, by rw [h6]; decide +kernel, by rw [h5]; decide, fun b hb => ?_⟩
  obtain ⟨⟨b', J⟩, hp, rfl⟩ := List.mem_map.1 ((h9 b).2 (.inl (.inl hb)))
  obtain ⟨k, hk⟩ := List.mem_iff_getElem?.1 hp
  obtain ⟨l, hl, -, -, -, hc, -⟩ := h8 k b' J hk
  exact ⟨l, List.mem_of_getElem? hl, hc⟩

/-- C81, the energy, for the same Hamiltonian and a configuration in a supercell. -/
example : ∃ text t f u, ucfText decimal Logo.env geo id 2 full 8 none true s1 = (.ok text, t) ∧
    dumpUcf id 2 full none s1 = (.ok u, t) ∧ readUcf (sciOf (K := ℚ)) text = some f ∧
    |f.energy (s1.magneticAtoms id) cfg - 2 * (675 / 4 - 3 / 4 * (75 / 4))| * (2 * 10 ^ 8) ≤
      1 / 2 * (u.lines.map fun l =>
        bondSum (s1.magneticAtoms id) (absConfig cfg) { l with matrix := fun i j => |l.matrix i j| }).sum := by
  obtain ⟨text, t, f, u, h1, h2, h3, h4⟩ := C81_energy_partial (K := ℚ) decimal_reads Logo.env (by decide) geo id
    (fun _ => List.Perm.refl _) 2 two_ne_zero full ⟨rfl, rfl, rfl⟩ 8 none true (fun _ => 5 / 2) s1 s1_wf.1.paired s1_wf.2
    true true (-1) (-1) (by decide +kernel) (by norm_num) (by norm_num) (fun m hm => by cases hm) cfg
  refine ⟨text, t, f, u, h1, h2, h3, ?_⟩
  have e : (2 : ℚ) * (675 / 4 - 3 / 4 * (75 / 4)) = 2 * (-1 * cfg.bonds (weight true fun _ => 5 / 2) s1.exchangeItems +
      -1 * cfg.sites (weight true fun _ => 5 / 2) s1.onSiteItems / 4) := by decide +kernel
  rw [e]
  exact h4

end VampireTextExample

end Magnopy
