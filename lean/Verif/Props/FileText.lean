import Verif.Props.FileEnergy
import Verif.Props.TxtDump

/-!
# Text files keep the physics up to the printed precision (C85)
-/

set_option autoImplicit false
set_option linter.unusedSectionVars false

namespace Magnopy

open PyDict
open H5 (Full)

variable {K : Type} [Field K] [LinearOrder K] [IsStrictOrderedRing K]

theorem size_nonneg (v : V3 K) : 0 ≤ size v := Finset.sum_nonneg fun _ _ => abs_nonneg _

/-- Matrices whose entries differ little give energies that differ little. -/
theorem bilin_close {n d : ℕ} {m m' : M3 K} (h : ∀ i j, Txt.Close n d (m' i j) (m i j)) (u v : V3 K) :
    |bilin u m' v - bilin u m v| * (2 * 10 ^ d) ≤ n * (size u * size v) := by
  have hd : (0 : K) ≤ 2 * 10 ^ d := by positivity
  have e : bilin u m' v - bilin u m v = ∑ i, ∑ j, u i * (m' i j - m i j) * v j := by
    unfold bilin
    rw [← Finset.sum_sub_distrib]
    refine Finset.sum_congr rfl fun i _ => ?_
    rw [← Finset.sum_sub_distrib]
    exact Finset.sum_congr rfl fun j _ => by ring
  have hb : |bilin u m' v - bilin u m v| ≤ ∑ i, ∑ j, |u i| * |m' i j - m i j| * |v j| := by
    rw [e]
    refine (Finset.abs_sum_le_sum_abs _ _).trans (Finset.sum_le_sum fun i _ => ?_)
    refine (Finset.abs_sum_le_sum_abs _ _).trans (Finset.sum_le_sum fun j _ => ?_)
    rw [abs_mul, abs_mul]
  refine (mul_le_mul_of_nonneg_right hb hd).trans ?_
  unfold size
  rw [Finset.sum_mul_sum, Finset.sum_mul, Finset.mul_sum]
  refine Finset.sum_le_sum fun i _ => ?_
  rw [Finset.sum_mul, Finset.mul_sum]
  refine Finset.sum_le_sum fun j _ => ?_
  have := mul_le_mul_of_nonneg_left (h i j) (mul_nonneg (abs_nonneg (u i)) (abs_nonneg (v j)))
  calc |u i| * |m' i j - m i j| * |v j| * (2 * 10 ^ d) = |u i| * |v j| * (|m' i j - m i j| * (2 * 10 ^ d)) := by ring
    _ ≤ |u i| * |v j| * n := this
    _ = n * (|u i| * |v j|) := by ring

theorem sum_close {ι : Type*} (l : Finset ι) (f g h : ι → K) {D N : K} (hD : 0 ≤ D) (hf : ∀ i ∈ l, |f i - g i| * D ≤ N * h i) :
    |∑ i ∈ l, f i - ∑ i ∈ l, g i| * D ≤ N * ∑ i ∈ l, h i := by
  rw [← Finset.sum_sub_distrib, Finset.mul_sum]
  refine (mul_le_mul_of_nonneg_right (Finset.abs_sum_le_sum_abs _ _) hD).trans ?_
  rw [Finset.sum_mul]
  exact Finset.sum_le_sum hf

namespace Txt

variable {F : Fmt K} {L : Lib K} {o : Opts} {x : Full K}

theorem Near.energy {n : ℕ} {y : Loaded K} (hu : (x.ham.atoms.map Atom.name).Nodup) (hi : x.ham.Inv) (hn : Near n x y) (ho : y.ham.Own)
    {Γ : Type} [AddCommGroup Γ] [Fintype Γ] {c c' : Config K Γ} {sp sp' : Atom → K} (hc : ByName x.ham.atoms y.ham.atoms c c' sp sp')
    (b : Bool) (e f : K) :
    |y.ham.energy c' b sp' e f - x.ham.energy c b sp e f| * (2 * 10 ^ 4) ≤
      |e| * (n * (x.ham.exchangeItems.map fun p => |weight b sp p.1.1 * weight b sp p.1.2.1| *
          ∑ m, size (c.σ p.1.1 m) * size (c.σ p.1.2.1 (m + c.τ p.1.2.2))).sum) +
        |f| * (x.ham.onSiteItems.map fun p => |weight b sp p.1 * weight b sp p.1| * ∑ m, size (c.σ p.1 m) * size (c.σ p.1 m)).sum := by
  have hD : (0 : K) ≤ 2 * 10 ^ 4 := by positivity
  obtain ⟨φ, h⟩ := exists_renames hu (List.Perm.of_eq hn.names)
  have isB : ∀ {α β : Type} {r : α → β → Prop} {a : Option α} {b : Option β}, Both r a b → a.isSome = b.isSome := by
    intro α β r a b h
    cases a <;> cases b <;> first | rfl | exact h.elim
  have getB : ∀ {N : ℕ} {a b : Option (M3 K)}, Both (fun m' m => ∀ i j, Close N 4 (m' i j) (m i j)) a b →
      ∀ i j, Close N 4 (a.getD 0 i j) (b.getD 0 i j) := by
    intro N a b h
    cases a <;> cases b
    · intro i j; simp [Close]
    · exact h.elim
    · exact h.elim
    · exact h
  have hE := fun a ha b hb R => hn.exchange a ha b hb _ (h.mem a ha) _ (h.mem b hb) (h.name a ha) (h.name b hb) R
  have hO := fun a ha => hn.onSite a ha _ (h.mem a ha) (h.name a ha)
  have hw : ∀ a ∈ x.ham.atoms, weight b sp' (φ a) = weight b sp a ∧ c'.σ (φ a) = c.σ a := fun a ha =>
    ⟨hc.weight b ha (h.mem a ha) (h.name a ha), (hc.spins a ha _ (h.mem a ha) (h.name a ha)).2⟩
  have k1 : |c'.bonds (weight b sp') y.ham.exchangeItems - c.bonds (weight b sp) x.ham.exchangeItems| * (2 * 10 ^ 4) ≤
      n * (x.ham.exchangeItems.map fun p => |weight b sp p.1.1 * weight b sp p.1.2.1| *
          ∑ m, size (c.σ p.1.1 m) * size (c.σ p.1.2.1 (m + c.τ p.1.2.2))).sum := by
    unfold Config.bonds
    rw [h.sumE hi.refer ho.inv.refer ho.inv.nodup (fun a ha b hb R => isB (hE a ha b hb R))
        fun q m => weight b sp' q.1 * weight b sp' q.2.1 * c'.bond q m,
      St.sum_bonds hi.nodup fun q m => weight b sp q.1 * weight b sp q.2.1 * c.bond q m,
      St.sum_bonds hi.nodup fun q _ => |weight b sp q.1 * weight b sp q.2.1| * ∑ m, size (c.σ q.1 m) * size (c.σ q.2.1 (m + c.τ q.2.2))]
    refine sum_close _ _ _ _ hD fun q hq => ?_
    obtain ⟨h1, h2⟩ := hi.refer.exch q (List.mem_toFinset.1 hq)
    simp only [renameBond, Config.bond, (hw _ h1).1, (hw _ h1).2, (hw _ h2).1, (hw _ h2).2, hc.supercell]
    rw [← mul_sub, abs_mul, mul_assoc |weight b sp _ * _|, mul_left_comm _ |weight b sp _ * _|]
    refine mul_le_mul_of_nonneg_left ?_ (abs_nonneg _)
    exact sum_close _ _ _ _ hD fun m _ => bilin_close (getB (hE _ h1 _ h2 q.2.2)) _ _
  have k2 : |c'.sites (weight b sp') y.ham.onSiteItems - c.sites (weight b sp) x.ham.onSiteItems| * (2 * 10 ^ 4) ≤
      (x.ham.onSiteItems.map fun p => |weight b sp p.1 * weight b sp p.1| * ∑ m, size (c.σ p.1 m) * size (c.σ p.1 m)).sum := by
    unfold Config.sites
    rw [h.sumO hi.refer ho.inv.refer ho.inv.nodup (fun a ha => isB (hO a ha)) fun q m => weight b sp' q * weight b sp' q * c'.site q m,
      St.sum_sites hi.nodup fun q m => weight b sp q * weight b sp q * c.site q m,
      St.sum_sites hi.nodup fun q _ => |weight b sp q * weight b sp q| * ∑ m, size (c.σ q m) * size (c.σ q m)]
    refine (sum_close _ _ _ _ hD (N := 1) fun q hq => ?_).trans (le_of_eq (one_mul _))
    have h1 := hi.refer.site q (List.mem_toFinset.1 hq)
    simp only [Config.site, (hw _ h1).1, (hw _ h1).2]
    rw [← mul_sub, abs_mul, mul_assoc |weight b sp _ * _|, mul_left_comm _ |weight b sp _ * _|]
    refine mul_le_mul_of_nonneg_left ?_ (abs_nonneg _)
    refine sum_close _ _ _ _ hD fun m _ => ?_
    have := bilin_close (getB (hO _ h1)) (c.σ q m) (c.σ q m)
    simpa using this
  unfold St.energy classicalEnergy
  have e1 : ∀ B B' S S' : K, |e * B' + f * S' - (e * B + f * S)| ≤ |e| * |B' - B| + |f| * |S' - S| := by
    intro B B' S S'
    rw [show e * B' + f * S' - (e * B + f * S) = e * (B' - B) + f * (S' - S) by ring, ← abs_mul, ← abs_mul]
    exact abs_add_le _ _
  refine (mul_le_mul_of_nonneg_right (e1 _ _ _ _) hD).trans ?_
  rw [add_mul, mul_assoc, mul_assoc]
  exact add_le_add (mul_le_mul_of_nonneg_left k1 (abs_nonneg _)) (mul_le_mul_of_nonneg_left k2 (abs_nonneg _))

/-- **C85** (partial), text files: the energy of what is read differs from the energy of what was written by at most half of the
fourth digit for each entry of a matrix, times the spins (three halves for an exchange matrix that is written in parts); with exchange
and on-site parameters, this holds for the energy according to the own notation of either.  Missing: see `C50_roundtrip_partial` and
`C85_text_no_onsite`. -/
theorem C85_text_energy_partial (h : Prints F L) (hw : L.Words) (ha : o.angles = false) (hc : o.Complete) (hx : Writable F L x)
    (hE : x.cone.isSome → L.Euclid) :
    ∃ text y, dumpText F o x = .ok text ∧ load L text = .ok y ∧
      ∀ (Γ : Type) [AddCommGroup Γ] [Fintype Γ] (c c' : Config K Γ) (sp sp' : Atom → K), ByName x.ham.atoms y.ham.atoms c c' sp sp' →
        (∀ b e f, |y.ham.energy c' b sp' e f - x.ham.energy c b sp e f| * (2 * 10 ^ 4) ≤
          |e| * (o.halves * (x.ham.exchangeItems.map fun p => |weight b sp p.1.1 * weight b sp p.1.2.1| *
              ∑ m, size (c.σ p.1.1 m) * size (c.σ p.1.2.1 (m + c.τ p.1.2.2))).sum) +
            |f| * (x.ham.onSiteItems.map fun p => |weight b sp p.1 * weight b sp p.1| * ∑ m, size (c.σ p.1 m) * size (c.σ p.1 m)).sum) ∧
        (x.ham.exch ≠ [] → x.ham.onSite ≠ [] → ∃ b e f, x.ham.sn = some b ∧ x.ham.ef = some e ∧ x.ham.osf = some f ∧
          y.ham.physics c' sp' = some (y.ham.energy c' b sp' e f) ∧ x.ham.physics c sp = some (x.ham.energy c b sp e f)) := by
  obtain ⟨text, y, h1, h2, h3, -⟩ := C50_roundtrip_partial h hw ha hc hx hE
  refine ⟨text, y, h1, h2, fun Γ _ _ c c' sp sp' hb => ⟨fun b e f =>
    h3.energy hx.kept.unique hx.kept.inv (C84_own (.text h2)) hb b e f, fun hE hO => ?_⟩⟩
  obtain ⟨b, hb'⟩ := Option.isSome_iff_exists.1 (hx.kept.sn (Or.inl hE))
  obtain ⟨d, hd⟩ := Option.isSome_iff_exists.1 (hx.kept.dc hE)
  obtain ⟨e, he⟩ := Option.isSome_iff_exists.1 (hx.kept.ef hE)
  obtain ⟨f, hf⟩ := Option.isSome_iff_exists.1 (hx.kept.osf hO)
  refine ⟨b, e, f, hb', he, hf, ?_, ?_⟩
  · rw [St.physics, St.getNotation, h3.dc hE, h3.sn (Or.inl hE), h3.ef hE, h3.osf hO, hb', hd, he, hf]
  · rw [St.physics, St.getNotation, hb', hd, he, hf]

/-- **C85**, text files: without on-site parameters the on-site factor is not written, and `Energy` of the Hamiltonian that is read
raises `NotationError`, whatever the notation was when it was written. -/
theorem C85_text_no_onsite (h : Prints F L) (hw : L.Words) (ha : o.angles = false) (hc : o.Complete) (hx : Writable F L x)
    (hE : x.cone.isSome → L.Euclid) (hX : x.ham.exch ≠ []) (hO : x.ham.onSite = []) :
    ∃ text y, dumpText F o x = .ok text ∧ load L text = .ok y ∧
      (∀ (Γ : Type) [AddCommGroup Γ] [Fintype Γ] (c : Config K Γ) (sp : Atom → K), y.ham.physics c sp = none) ∧
      ∀ (order : List Atom → List Atom) (g : Atom → K), (∀ l, (order l).Perm l) →
        ∃ t, EnergyObj.init order y.cell g y.ham = (.error .notationError, t) ∧ t.dc = some true := by
  obtain ⟨text, y, h1, h2, h3, -, -, -, h7, -⟩ := C50_roundtrip_partial h hw ha hc hx hE
  have ho := C84_own (.text h2)
  refine ⟨text, y, h1, h2, fun Γ _ _ c sp => ?_, fun order g hord => ?_⟩
  · unfold St.physics St.getNotation
    rw [h7 hO]
    cases y.ham.dc <;> cases y.ham.sn <;> cases y.ham.ef <;> rfl
  · obtain ⟨d, hd⟩ := Option.isSome_iff_exists.1 (hx.kept.dc hX)
    obtain ⟨e, he⟩ := Option.isSome_iff_exists.1 (hx.kept.ef hX)
    refine init_no_factor hord ho.inv.refer ho.inv.nodup ho.alloc ho.noShare ((h3.dc hX).trans hd) ((h3.ef hX).trans he) (h7 hO) (fun a ha => ?_) _ _
    obtain ⟨b, hb, e⟩ := List.mem_map.1 (h3.names ▸ List.mem_map_of_mem (f := Atom.name) ha)
    obtain ⟨d, v, q1, -⟩ := h3.data b hb a ha e.symm
    rw [C84_spins.1 h2, q1]
    rfl

namespace DumpEx

/-- C85: both spins have length 3 and point along x, the energy of one cell is -6; that of what is read is -6 within 0.0009 (an entry
of the matrix is 1/3, so it is not -6). -/
example : ∃ text y E, dumpText DumpEx.F {} two = .ok text ∧ load Q text = .ok y ∧
    y.ham.physics (Γ := Unit) ⟨0, fun _ _ => ![1, 0, 0]⟩ (fun _ => 3) = some E ∧ |E + 6| ≤ 9 / 10 ^ 4 ∧
    two.ham.physics (Γ := Unit) ⟨0, fun _ _ => ![1, 0, 0]⟩ (fun _ => 3) = some (-6) := by
  obtain ⟨t, y, h1, h2, h3⟩ := C85_text_energy_partial Q_prints Q_words rfl (Or.inl rfl) two_writable (fun h => by simp [two] at h) (o := {})
  obtain ⟨h4, h5⟩ := h3 Unit ⟨0, fun _ _ => ![1, 0, 0]⟩ ⟨0, fun _ _ => ![1, 0, 0]⟩ (fun _ => 3) (fun _ => 3) ⟨rfl, fun _ _ _ _ _ => ⟨rfl, rfl⟩⟩
  obtain ⟨b, e, f, hb, he, hf, p1, p2⟩ := h5 (by decide +kernel) (by decide +kernel)
  have hb' : b = false := by simpa [two] using hb.symm
  have he' : e = 1 / 2 := by simpa [two] using he.symm
  have hf' : f = -1 := by simpa [two] using hf.symm
  subst hb' he' hf'
  have hE : two.ham.energy (Γ := Unit) ⟨0, fun _ _ => ![1, 0, 0]⟩ false (fun _ => 3) (1 / 2) (-1) = -6 := by
    simp [two, St.energy, classicalEnergy, Config.bonds, Config.sites, Config.bond, Config.site, St.exchangeItems,
      St.onSiteItems, weight, bilin, Fin.sum_univ_three]
    norm_num
  refine ⟨t, y, _, h1, h2, p1, ?_, p2.trans (congrArg some hE)⟩
  have := h4 false (1 / 2) (-1)
  rw [hE] at this
  simp [two, Opts.halves, St.exchangeItems, St.onSiteItems, weight, size, Fin.sum_univ_three] at this
  norm_num at this
  linarith

/-- The example without its on-site parameter. -/
def bonds : Full ℚ := { two with ham := { two.ham with onSite := [] } }

theorem bonds_writable : Writable DumpEx.F Q bonds where
  kept :=
    { inv := ⟨⟨by decide +kernel, by decide +kernel⟩, ⟨by decide +kernel, by decide +kernel⟩, fun _ => by decide +kernel⟩
      unique := two_writable.kept.unique, named := two_writable.kept.named, plain := two_writable.kept.plain
      sn := fun _ => rfl, dc := fun _ => rfl, ef := fun _ => rfl, osf := fun _ => rfl, cone := two_writable.kept.cone }
  atoms := two_writable.atoms
  words := two_writable.words
  letter := two_writable.letter
  noSelf := two_writable.noSelf
  symmetric := fun a m h => by simp [St.valO, bonds, PyDict.get?] at h
  ef := two_writable.ef
  osf := two_writable.osf
  spins := two_writable.spins

/-- C85: the file of a Hamiltonian with bonds only is read, but its energy cannot be computed. -/
example : ∃ text y t, dumpText DumpEx.F {} bonds = .ok text ∧ load Q text = .ok y ∧
    EnergyObj.init id y.cell (fun _ => 2) y.ham = (.error .notationError, t) := by
  obtain ⟨t, y, h1, h2, -, h3⟩ := C85_text_no_onsite Q_prints Q_words rfl (Or.inl rfl) bonds_writable (fun h => by simp [bonds, two] at h)
    (by decide +kernel) rfl (o := {})
  obtain ⟨u, h4, -⟩ := h3 id (fun _ => 2) fun _ => .refl _
  exact ⟨t, y, u, h1, h2, h4⟩

end DumpEx

end Txt

end Magnopy
