import Verif.Props.OptDirection
import Mathlib.Analysis.Real.Pi.Bounds

/-!
# Wrong claims about the minimisation: C33, C34, C36, C56

One spin with a single-site term `A` (`A_xz = A_zx = a / 2`) in a field, started along `z`.  The finite differences can
be computed exactly; with a torque of length `π` the first step turns the spin to `-z`.
-/

set_option autoImplicit false

set_option linter.unusedSectionVars false

namespace Magnopy

open EnergyObj Matrix Optimize

namespace OneSpin

/-- The object: one spin of length one, `g = 2`, one single-site term, field `(bx, 0, bz)`. -/
noncomputable def obj (bx bz c2 : ℝ) : EnergyObj ℝ :=
  ⟨1, [2], [1], [(0, 0, 0, 7)], some ![bx, 0, bz], 10, 10000, 1 / 10000, c2⟩

/-- The single-site matrix. -/
noncomputable def mat (a : ℝ) : ℕ → M3 ℝ := fun _ => !![0, 0, a / 2; 0, 0, 0; a / 2, 0, 0]

/-- `√(1 + h²)` -/
noncomputable def w : ℝ := Real.sqrt (1 + fdStep ^ 2)

theorem w_pos : 0 < w := Real.sqrt_pos.mpr (by positivity)

theorem w_sq : w ^ 2 = 1 + fdStep ^ 2 := Real.sq_sqrt (by positivity)

theorem fdStep_pos : 0 < fdStep := by unfold fdStep; norm_num

/-- The energy of the spin direction `v`. -/
theorem energy_one (bx bz c2 a muB : ℝ) (v : V3 ℝ) :
    (ferroProblem (obj bx bz c2) muB (mat a)).energy [v] =
      a * (v 0 / norm3 v) * (v 2 / norm3 v) + muB * (2 * bx * (v 0 / norm3 v) + 2 * bz * (v 2 / norm3 v)) := by
  simp only [ferroProblem, ferroUnit, bondSum, zeeman, einsumZeeman, obj, List.map_cons, List.map_nil, List.sum_cons,
    List.sum_nil, List.zipWith_cons_cons, List.zipWith_nil_left, einsum3, mat, EnergyObj.normalize, List.getD_cons_zero,
    Fin.sum_univ_three, Matrix.cons_val_zero, Matrix.cons_val_one, Matrix.cons_val, Matrix.of_apply]
  ring

theorem norm_side {v : V3 ℝ} (h : v 0 ^ 2 + v 1 ^ 2 + v 2 ^ 2 = 1 + fdStep ^ 2) : norm3 v = w := by
  rw [norm3, h, w]

/-- The torque of the spin `(0, 0, s)`, `s = ±1`. -/
theorem torque_one (bx bz c2 a muB s : ℝ) (hs : s ^ 2 = 1) :
    rowTorque (ferroProblem (obj bx bz c2) muB (mat a)).energy [![0, 0, s]] 0 =
      ![0, a / w ^ 2 + s * (muB * (2 * bx)) / w, 0] := by
  have hh := fdStep_pos
  have hw := w_pos
  have g0 : rowGrad (ferroProblem (obj bx bz c2) muB (mat a)).energy [![0, 0, s]] 0 0 =
      s * a / w ^ 2 + muB * (2 * bx) / w := by
    simp only [rowGrad, List.getD_cons_zero, List.set_cons_zero, energy_one]
    rw [norm_side (v := bump ![0, 0, s] 0 fdStep) (by simp [bump]; linarith),
      norm_side (v := bump ![0, 0, s] 0 (-fdStep)) (by simp [bump]; linarith)]
    simp [bump]
    field_simp
    ring
  have g1 : rowGrad (ferroProblem (obj bx bz c2) muB (mat a)).energy [![0, 0, s]] 0 1 = 0 := by
    simp only [rowGrad, List.getD_cons_zero, List.set_cons_zero, energy_one]
    rw [norm_side (v := bump ![0, 0, s] 1 fdStep) (by simp [bump]; linarith),
      norm_side (v := bump ![0, 0, s] 1 (-fdStep)) (by simp [bump]; linarith)]
    simp [bump]
  simp only [rowTorque, List.getD_cons_zero]
  rw [cross_apply]
  simp only [g0, g1]
  ext i
  fin_cases i
  · simp
  · simp
    linear_combination (a / w ^ 2) * hs
  · simp

/-- The gradient vector of the spin `(0, 0, s)`. -/
theorem grad_one (bx bz c2 a muB s : ℝ) (hs : s ^ 2 = 1) :
    ((ferroProblem (obj bx bz c2) muB (mat a)).grad [![0, 0, s]]).1 0 = 0 ∧
      ((ferroProblem (obj bx bz c2) muB (mat a)).grad [![0, 0, s]]).1 1 = -(a / w ^ 2 + s * (muB * (2 * bx)) / w) ∧
      ((ferroProblem (obj bx bz c2) muB (mat a)).grad [![0, 0, s]]).1 2 = 0 := by
  have ht := torque_one bx bz c2 a muB s hs
  have hl : rowTorques (ferroProblem (obj bx bz c2) muB (mat a)).energy [![0, 0, s]] =
      [![0, a / w ^ 2 + s * (muB * (2 * bx)) / w, 0]] := by
    simp [rowTorques, ht]
  have hg : ((ferroProblem (obj bx bz c2) muB (mat a)).grad [![0, 0, s]]).1 =
      packTorques (rowTorques (ferroProblem (obj bx bz c2) muB (mat a)).energy [![0, 0, s]]) := rfl
  rw [hg, hl]
  simp [packTorques]

theorem vdot_three (u v : Arr) : vdot 3 u v = u 0 * v 0 + u 1 * v 1 + u 2 * v 2 := by
  simp [vdot, Finset.sum_range_succ]

/-- With a torque of length `π` the first step turns the spin over. -/
theorem update_one (bx bz c2 a muB : ℝ) (hG : a / w ^ 2 + muB * (2 * bx) / w = Real.pi) :
    (ferroProblem (obj bx bz c2) muB (mat a)).update [![0, 0, 1]]
      ((ferroProblem (obj bx bz c2) muB (mat a)).grad [![0, 0, 1]]).1 1 = [![0, 0, -1]] := by
  obtain ⟨h0, h1, h2⟩ := grad_one bx bz c2 a muB 1 (by norm_num)
  rw [one_mul, hG] at h1
  have hu : ∀ p : Arr, (ferroProblem (obj bx bz c2) muB (mat a)).update [![0, 0, 1]] p 1 =
      [rotateRow (p 0 * 1) (p 1 * 1) (p 2 * 1) ![0, 0, 1]] := fun p => by
    simp [ferroProblem, updateFerro, rotateRows, obj]
  rw [hu, h0, h1, h2]
  have hpi := Real.pi_pos
  have hsq : Real.sqrt ((0 * 1 : ℝ) ^ 2 + (-Real.pi * 1) ^ 2 + (0 * 1) ^ 2) = Real.pi := by
    rw [show ((0 * 1 : ℝ) ^ 2 + (-Real.pi * 1) ^ 2 + (0 * 1) ^ 2) = Real.pi ^ 2 by ring, Real.sqrt_sq hpi.le]
  have hbig : ¬ Real.sqrt ((0 * 1 : ℝ) ^ 2 + (-Real.pi * 1) ^ 2 + (0 * 1) ^ 2) < eps := by
    rw [hsq, not_lt]
    have : eps ≤ 1 := by unfold eps; norm_num
    linarith [Real.pi_gt_three]
  rw [rotateRow_big hbig, hsq, rotate, Real.cos_pi, Real.sin_pi]
  congr 1
  ext i
  fin_cases i <;> simp [dotProduct, Fin.sum_univ_three]

theorem energy_pole (bx bz c2 a muB s : ℝ) (hs : s ^ 2 = 1) :
    (ferroProblem (obj bx bz c2) muB (mat a)).energy [![0, 0, s]] = muB * (2 * bz) * s := by
  rw [energy_one]
  have : norm3 ![0, 0, s] = 1 := by simp [norm3, hs]
  rw [this]
  simp
  ring

theorem accepts_one (bx bz c2 a muB : ℝ) (hG : a / w ^ 2 + muB * (2 * bx) / w = Real.pi)
    (he : -(muB * (2 * bz)) ≤ muB * (2 * bz) + 1 / 10000 * Real.pi ^ 2)
    (hc : |(a / w ^ 2 - muB * (2 * bx) / w) * Real.pi| ≤ |c2 * Real.pi ^ 2|) :
    Accepts (ferroProblem (obj bx bz c2) muB (mat a)) (1 / 10000) c2 [![0, 0, 1]]
      ((ferroProblem (obj bx bz c2) muB (mat a)).grad [![0, 0, 1]]).1 1 := by
  have hsz : (ferroProblem (obj bx bz c2) muB (mat a)).size = 3 := rfl
  obtain ⟨h0, h1, h2⟩ := grad_one bx bz c2 a muB 1 (by norm_num)
  obtain ⟨k0, k1, k2⟩ := grad_one bx bz c2 a muB (-1) (by norm_num)
  rw [one_mul, hG] at h1
  simp only [Accepts, not_or, not_lt]
  rw [update_one bx bz c2 a muB hG, energy_pole _ _ _ _ _ (-1) (by norm_num), energy_pole _ _ _ _ _ 1 (by norm_num), hsz,
    vdot_three, vdot_three, h0, h1, h2, k0, k1, k2]
  constructor
  · linarith
  · rw [show (0 * 0 + -(a / w ^ 2 + -1 * (muB * (2 * bx)) / w) * -Real.pi + 0 * 0 : ℝ) =
      (a / w ^ 2 - muB * (2 * bx) / w) * Real.pi by ring,
      show (c2 * (0 * 0 + -Real.pi * -Real.pi + 0 * 0) : ℝ) = c2 * Real.pi ^ 2 by ring]
    exact hc

end OneSpin

/-! ### C36 -/

/-- The full claim of C36 for the ferro case with the default settings: the accepted first step does not increase the
energy. -/
def C36_statement (muB : ℝ) : Prop :=
  ∀ (E : EnergyObj ℝ) (cell : ℕ → M3 ℝ) (x : List (V3 ℝ)) (lam : ℝ), E.wolfeC1 = 1 / 10000 → E.wolfeC2 = 9 / 10 →
    x.length = E.spins.length → AllUnit x →
    lineSearch (ferroProblem E muB cell) E.wolfeC1 E.wolfeC2 E.wolfeIterMax x ((ferroProblem E muB cell).grad x).1 = .ok lam →
    (ferroProblem E muB cell).energy ((ferroProblem E muB cell).update x ((ferroProblem E muB cell).grad x).1 lam) ≤
      (ferroProblem E muB cell).energy x

open OneSpin in
/-- **C36** is false with the default settings, for every value `muB ≠ 0` of the Bohr magneton: a step from `z` to `-z`
is accepted although the energy grows by `2·10⁻⁴`. -/
theorem C36_false (muB : ℝ) (hmu : muB ≠ 0) : ¬ C36_statement muB := by
  intro h
  have hw := w_pos
  have hpi := Real.pi_gt_three
  set bx : ℝ := w * Real.pi / 2 / (2 * muB) with hbx
  set bz : ℝ := -(1 / 10000) / (2 * muB) with hbz
  set a : ℝ := w ^ 2 * Real.pi / 2 with ha
  have e1 : muB * (2 * bx) = w * Real.pi / 2 := by rw [hbx]; field_simp
  have e2 : muB * (2 * bz) = -(1 / 10000) := by rw [hbz]; field_simp
  have ea : a / w ^ 2 = Real.pi / 2 := by rw [ha]; field_simp
  have eb : muB * (2 * bx) / w = Real.pi / 2 := by rw [e1]; field_simp
  have hG : a / w ^ 2 + muB * (2 * bx) / w = Real.pi := by rw [ea, eb]; ring
  have hacc := accepts_one bx bz (9 / 10) a muB hG (by rw [e2]; nlinarith) (by rw [ea, eb]; simp; positivity)
  have hls : lineSearch (ferroProblem (obj bx bz (9 / 10)) muB (mat a)) (1 / 10000) (9 / 10) 10000 [![0, 0, 1]]
      ((ferroProblem (obj bx bz (9 / 10)) muB (mat a)).grad [![0, 0, 1]]).1 = .ok 1 := by
    rw [lineSearch, lineLoop, if_pos hacc]
  have := h (obj bx bz (9 / 10)) (mat a) [![0, 0, 1]] 1 rfl rfl rfl
    (by simp [AllUnit, IsUnit3, dotProduct, Fin.sum_univ_three]) hls
  rw [update_one bx bz (9 / 10) a muB hG, energy_pole _ _ _ _ _ (-1) (by norm_num), energy_pole _ _ _ _ _ 1 (by norm_num),
    e2] at this
  norm_num at this

/-! ### C34 -/

/-- The full claim of C34 about the torques (ferro case, no limit on the iterations). -/
def C34_statement : Prop :=
  ∀ (E : EnergyObj ℝ) (muB : ℝ) (cell : ℕ → M3 ℝ) (t0 t1 : ℝ) (fuel : ℕ) (x : List (V3 ℝ)) (r : Outcome (List (V3 ℝ))),
    0 < t0 → 0 < t1 → x.length = E.spins.length → AllUnit x →
    run (ferroProblem E muB cell) E ⟨t0, [t1], none, none⟩ fuel x = some (.ok r) →
    ∀ i < r.x.length, norm3 (rowTorque (ferroProblem E muB cell).energy r.x i) ≤ t1

/-- If the first step is accepted and brings everything below the tolerances, the run returns its result. -/
theorem run_one {X : Type} {P : Problem X} {E : EnergyObj ℝ} {o : Options} {x : X} {ts : List ℝ} (hm : 0 < E.m)
    (hpos : o.Positive) (hmax : o.maxIter = none) (hh : o.history = none)
    (ha : Accepts P E.wolfeC1 E.wolfeC2 x (P.grad x).1 1) (ht : P.target (P.grad x).2 = .ok ts)
    (he : |P.energy x - P.energy (P.update x (P.grad x).1 1)| ≤ o.tolEnergy) (hts : ∀ p ∈ ts.zip o.tolTorque, p.1 ≤ p.2) :
    ∃ r, run P E o 2 x = some (.ok r) ∧ r.x = P.update x (P.grad x).1 1 := by
  have hr : Running o (initial P o x) := (running_initial_iff P o x).mpr hpos
  have hl : ¬ AtLimit o (initial P o x) := by
    rintro ⟨n, hn, _⟩; rw [hmax] at hn; cases hn
  have hm0 : E.m.toNat ≠ 0 := by omega
  have hd : searchDirection E.m.toNat P.size (initial P o x).mem (initial P o x).k (P.grad (initial P o x).x).1
      (initial P o x).prev = .ok (0, (P.grad x).1, Optimize.Mem.zero) := by
    simp [searchDirection, initial, hm0]
  have hls : lineSearch P E.wolfeC1 E.wolfeC2 E.wolfeIterMax (initial P o x).x (P.grad x).1 = .ok 1 := by
    show lineSearch P E.wolfeC1 E.wolfeC2 E.wolfeIterMax x (P.grad x).1 = .ok 1
    rw [lineSearch, lineLoop, if_pos ha]
  have ht' : P.target (P.grad (initial P o x).x).2 = .ok ts := ht
  obtain ⟨s', hs'⟩ : ∃ s', iterate P E o (initial P o x) = .ok s' := by
    simp only [iterate, hd, hls, ht', hh]
    exact ⟨_, rfl⟩
  obtain ⟨k, p, mem, lam, t⟩ := iterate_spec hs'
  have hdir := t.dir
  rw [hd] at hdir
  cases hdir
  have hline := t.line
  rw [hls] at hline
  cases hline
  have htt := t.targets
  rw [ht'] at htt
  have hx : s'.x = P.update x (P.grad x).1 1 := t.x
  have hnr : ¬ Running o s' := by
    simp only [Running, not_or, not_lt, not_exists, not_and]
    refine ⟨?_, ?_⟩
    · rw [t.energyDiff, hx]; exact he
    · rw [← Except.ok.inj htt]; exact hts
  refine ⟨⟨s'.x, s'.written⟩, ?_, hx⟩
  rw [run, if_neg (by omega), optLoop]
  simp only [hr, hl, if_true, if_false, hs']
  rw [optLoop]
  simp only [hnr, if_false, hh]

namespace OneSpin

/-- The field and the single-site term of the example. -/
noncomputable def bx : ℝ := -w / 2
noncomputable def aa : ℝ := w ^ 2 * (Real.pi + 1)

/-- The problem of the example, `wolfe_c2 = 10`. -/
noncomputable def prob : Problem (List (V3 ℝ)) := ferroProblem (obj bx 0 10) 1 (mat aa)

theorem aa_eq : aa / w ^ 2 = Real.pi + 1 := by
  have := w_pos
  rw [aa]; field_simp

theorem bx_eq : 1 * (2 * bx) / w = -1 := by
  have := w_pos
  rw [bx]; field_simp

theorem flip_G : aa / w ^ 2 + 1 * (2 * bx) / w = Real.pi := by rw [aa_eq, bx_eq]; ring

/-- The first step turns the spin over and everything is below the tolerances `(1, 4)`. -/
theorem flip_run : ∃ r, run prob (obj bx 0 10) ⟨1, [4], none, none⟩ 2 [![0, 0, 1]] = some (.ok r) ∧ r.x = [![0, 0, -1]] := by
  have hpi := Real.pi_gt_three
  have hpi4 := Real.pi_lt_four
  have hacc := accepts_one bx 0 10 aa 1 flip_G (by simp; positivity) (by
    rw [aa_eq, bx_eq, abs_of_nonneg (by nlinarith), abs_of_nonneg (by positivity)]; nlinarith)
  have ht : prob.target (prob.grad [![0, 0, 1]]).2 = .ok [Real.pi] := by
    have h2 : (prob.grad [![0, 0, 1]]).2 = [rowTorque prob.energy [![0, 0, 1]] 0] := rfl
    rw [h2, prob, torque_one _ _ _ _ _ 1 (by norm_num), one_mul, flip_G]
    simp [ferroProblem, targetFerro, maxNorm, norm3, Real.sqrt_sq Real.pi_pos.le]
  have hup := update_one bx 0 10 aa 1 flip_G
  obtain ⟨r, hr, hrx⟩ := run_one (P := prob) (E := obj bx 0 10)
    (o := ⟨1, [4], none, none⟩) (x := [![0, 0, 1]]) (by norm_num [obj]) (.inl one_pos) rfl rfl hacc ht
    (by rw [prob, hup, energy_pole _ _ _ _ _ (-1) (by norm_num), energy_pole _ _ _ _ _ 1 (by norm_num)]; simp)
    (by simp; exact hpi4.le)
  exact ⟨r, hr, hrx.trans hup⟩

theorem pole_unit : AllUnit [![0, 0, 1]] := by simp [AllUnit, IsUnit3, dotProduct, Fin.sum_univ_three]

end OneSpin

open OneSpin in
/-- **C34** is false for the torques of the returned configuration: with `wolfe_c2 = 10` and `tolerance = (1, 4)` the
loop ends with a torque of `π + 2`. -/
theorem C34_torque_false : ¬ C34_statement := by
  intro h
  obtain ⟨r, hr, hrx⟩ := flip_run
  have := h (obj bx 0 10) 1 (mat aa) 1 4 2 [![0, 0, 1]] r one_pos (by norm_num) rfl pole_unit hr 0 (by rw [hrx]; simp)
  rw [hrx, torque_one _ _ _ _ _ (-1) (by norm_num), aa_eq] at this
  have e : (Real.pi + 1 + -1 * (1 * (2 * bx)) / w) = Real.pi + 2 := by
    rw [neg_one_mul, neg_div, bx_eq]; ring
  rw [e] at this
  have hn : norm3 ![0, Real.pi + 2, 0] = Real.pi + 2 := by
    simp [norm3, Real.sqrt_sq (by positivity : (0 : ℝ) ≤ Real.pi + 2)]
  rw [hn] at this
  linarith [Real.pi_gt_three]

open OneSpin in
/-- The hypotheses of C32, C34, C37: a call of `optimize` which returns, after turning the spin from `z` to `-z`. -/
example : ∃ r, optimizeFerro (obj bx 0 10) 1 (mat aa) ⟨[], 0, 0⟩ (some (.rows [[0, 0, 2]])) (some [1, 4]) none none 2 =
    some (.ok r) ∧ r.x = [![0, 0, -1]] := by
  obtain ⟨r, hr, hrx⟩ := flip_run
  refine ⟨r, ?_, hrx⟩
  have hs : normalizeRows [![0, 0, (2 : ℝ)]] = [![0, 0, 1]] := by
    have h2 : norm3 ![0, 0, (2 : ℝ)] = 2 := by
      simp [norm3, Real.sqrt_sq (by norm_num : (0 : ℝ) ≤ 2)]
    simp only [normalizeRows, List.map_cons, List.map_nil]
    congr 1
    ext i
    fin_cases i <;> simp [EnergyObj.normalize, h2]
  have h1 : startFerro (obj bx 0 10).spins.length [] (some (.rows [[0, 0, 2]])) = .ok [![0, 0, 1]] := by
    have : startFerro (obj bx 0 10).spins.length [] (some (.rows [[0, 0, 2]])) = .ok (normalizeRows [![0, 0, (2 : ℝ)]]) := rfl
    rw [this, hs]
  rw [optimizeFerro, h1]
  exact hr

open OneSpin in
/-- The hypotheses of C33, C36, C55: the gradient of the example is not zero and a step along it is accepted. -/
example : lineSearch prob (1 / 10000) 10 10000 [![0, 0, 1]] (prob.grad [![0, 0, 1]]).1 = .ok 1 ∧
    (prob.grad [![0, 0, 1]]).1 1 ≠ 0 := by
  have hpi := Real.pi_gt_three
  have hacc := accepts_one bx 0 10 aa 1 flip_G (by simp; positivity) (by
    rw [aa_eq, bx_eq, abs_of_nonneg (by nlinarith), abs_of_nonneg (by positivity)]; nlinarith)
  refine ⟨?_, ?_⟩
  · rw [lineSearch, lineLoop]
    exact if_pos hacc
  · obtain ⟨_, h1, _⟩ := grad_one bx 0 10 aa 1 1 (by norm_num)
    rw [one_mul, flip_G] at h1
    rw [prob, h1]
    linarith

end Magnopy
