import Verif.Spec.Rounding
import Verif.Spec.WellFormed
import Verif.Spec.Notation
import Verif.Lemmas.HamDC
import Mathlib.Tactic.Linarith
import Mathlib.Tactic.Ring
import Mathlib.Tactic.FieldSimp
import Mathlib.Algebra.Order.Ring.Pow

/-!
# Helper lemmas: round-off of the setters of the notation
-/

set_option autoImplicit false

set_option linter.unusedSectionVars false

namespace Magnopy

open PyDict

variable {K : Type*} [Field K] [LinearOrder K] [IsStrictOrderedRing K]

/-! ### Roundings of one number -/

namespace Rounded

variable {u : K} {fl : K → K}

theorem mono (h0 : 0 ≤ u) (h1 : u < 1) {n m : ℕ} (hnm : n ≤ m) {x y : K} (h : Rounded u n x y) : Rounded u m x y := by
  obtain ⟨θ, a, b, c⟩ := h
  have hp : (1 - u) ^ m ≤ (1 - u) ^ n := pow_le_pow_of_le_one (by linarith) (by linarith) hnm
  have hθ : 0 ≤ θ := (pow_nonneg (by linarith) n).trans a
  exact ⟨θ, hp.trans a, (mul_le_mul_of_nonneg_left hp hθ).trans b, c⟩

theorem refl (x : K) : Rounded u 0 x x := ⟨1, by simp, by simp, by simp⟩

theorem mul (h1 : u < 1) {n m : ℕ} {x y x' y' : K} (h : Rounded u n x y) (h' : Rounded u m x' y') :
    Rounded u (n + m) (x * x') (y * y') := by
  obtain ⟨θ, a, b, c⟩ := h
  obtain ⟨θ', a', b', c'⟩ := h'
  have hp : 0 < (1 - u) ^ n := pow_pos (by linarith) n
  have hp' : 0 < (1 - u) ^ m := pow_pos (by linarith) m
  refine ⟨θ * θ', ?_, ?_, by rw [c, c']; ring⟩
  · rw [pow_add]
    exact mul_le_mul a a' hp'.le (hp.le.trans a)
  · rw [pow_add, mul_mul_mul_comm]
    exact mul_le_one₀ b (mul_nonneg (hp'.le.trans a') hp'.le) b'

theorem inv (h1 : u < 1) {n : ℕ} {x y : K} (h : Rounded u n x y) : Rounded u n x⁻¹ y⁻¹ := by
  obtain ⟨θ, a, b, c⟩ := h
  have hp : 0 < (1 - u) ^ n := pow_pos (by linarith) n
  have hθ : 0 < θ := hp.trans_le a
  refine ⟨θ⁻¹, ?_, ?_, by rw [c, mul_inv]⟩
  · rw [le_inv_comm₀ hp hθ, ← one_div, le_div_iff₀ hp]
    exact b
  · rw [inv_mul_le_iff₀ hθ, mul_one]
    exact a

theorem one (hf : IsRounding fl u) (x : K) : Rounded u 1 x (fl x) := by
  have h := hf.close x
  have h0 := hf.nonneg
  by_cases hx : x = 0
  · subst hx
    refine ⟨1, by simpa using h0, by simpa using h0, ?_⟩
    simpa using h
  · have hθ : |fl x / x - 1| ≤ u := by
      have : fl x / x - 1 = (fl x - x) / x := by field_simp
      rw [this, abs_div, div_le_iff₀ (abs_pos.2 hx)]
      exact h
    rw [abs_le] at hθ
    refine ⟨fl x / x, by rw [pow_one]; linarith, ?_, by field_simp⟩
    rw [pow_one]
    have : fl x / x * (1 - u) ≤ (1 + u) * (1 - u) :=
      mul_le_mul_of_nonneg_right (by linarith) (by linarith [hf.lt])
    nlinarith

theorem trans (h1 : u < 1) {n m : ℕ} {x y z : K} (h : Rounded u n x y) (h' : Rounded u m y z) : Rounded u (n + m) x z := by
  obtain ⟨θ, a, b, c⟩ := h
  obtain ⟨θ', a', b', c'⟩ := h'
  have := mul h1 (⟨θ, a, b, rfl⟩ : Rounded u n x (x * θ)) (⟨θ', a', b', (one_mul θ').symm⟩ : Rounded u m 1 θ')
  rw [mul_one] at this
  rw [c', c]
  exact this

theorem fl_mul (hf : IsRounding fl u) {n m : ℕ} {x y x' y' : K} (h : Rounded u n x y) (h' : Rounded u m x' y') :
    Rounded u (n + m + 1) (x * x') (fl (y * y')) :=
  (mul hf.lt h h').trans hf.lt (one hf _)

/-- Zero stays zero. -/
theorem zero {n : ℕ} {y : K} (h : Rounded u n 0 y) : y = 0 := by
  obtain ⟨θ, _, _, c⟩ := h
  rw [c, zero_mul]

/-- The error of `n` roundings. -/
theorem error (h0 : 0 ≤ u) (h1 : u < 1) {n : ℕ} (hn : n * u < 1) {x y : K} (h : Rounded u n x y) :
    |y - x| ≤ gamma u n * |x| := by
  obtain ⟨θ, a, b, c⟩ := h
  have hbern : 1 - n * u ≤ (1 - u) ^ n := by
    have := one_add_mul_le_pow (a := -u) (by linarith) n
    rw [← sub_eq_add_neg] at this
    linarith
  have hpos : (0 : K) < 1 - n * u := by linarith
  have hnu : 0 ≤ n * u := mul_nonneg (Nat.cast_nonneg n) h0
  have hθ : 0 ≤ θ := (pow_nonneg (by linarith) n).trans a
  have hg : gamma u n * (1 - n * u) = n * u := by
    unfold gamma
    field_simp
  have hg0 : n * u ≤ gamma u n := by
    rw [gamma, le_div_iff₀ hpos]
    nlinarith
  have key : |θ - 1| ≤ gamma u n := by
    rw [abs_le]
    refine ⟨by linarith, ?_⟩
    have : θ * (1 - n * u) ≤ 1 := (mul_le_mul_of_nonneg_left hbern hθ).trans b
    rw [gamma, le_div_iff₀ hpos]
    linarith
  rw [c, show x * θ - x = (θ - 1) * x by ring, abs_mul]
  exact mul_le_mul_of_nonneg_right key (abs_nonneg x)

end Rounded

namespace St

/-! ### Hamiltonians that agree up to roundings -/

/-- `y` is a stored matrix up to roundings. -/
def NearM (u : K) (w : ℕ) (o o' : Option (M3 K)) : Prop :=
  ∀ x, o = some x → ∃ y, o' = some y ∧ ∀ i j, Rounded u w (x i j) (y i j)

/-- `s` is sound, `t` has the same keys and references, and the same matrices up to roundings. -/
structure Near (u : K) (we wo : ℕ) (s t : St K) : Prop where
  keys : s.KeysNodup
  refer : s.Refer
  alloc : s.Alloc
  noShare : s.NoShare
  ham : t.toHam = s.toHam
  next : t.next = s.next
  valE : ∀ b, NearM u we (s.valE b) (t.valE b)
  valO : ∀ a, NearM u wo (s.valO a) (t.valO a)

/-- The same exception, or none, and states that agree up to roundings. -/
def NearR (u : K) (we wo : ℕ) (r r' : Res (St K)) : Prop := r'.err = r.err ∧ Near u we wo r.st r'.st

variable {u : K} {fl : K → K} {we wo : ℕ} {s t : St K}

theorem NearM.mono (h0 : 0 ≤ u) (h1 : u < 1) {n m : ℕ} (hnm : n ≤ m) {o o' : Option (M3 K)} (h : NearM u n o o') :
    NearM u m o o' := fun x hx => by
  obtain ⟨y, hy, hxy⟩ := h x hx
  exact ⟨y, hy, fun i j => (hxy i j).mono h0 h1 hnm⟩

theorem NearM.transpose {n : ℕ} {o o' : Option (M3 K)} (h : NearM u n o o') :
    NearM u n (o.map Param.T) (o'.map Param.T) := fun x hx => by
  obtain ⟨x', hx', rfl⟩ := Option.map_eq_some_iff.1 hx
  obtain ⟨y, hy, hxy⟩ := h x' hx'
  exact ⟨Param.T y, by rw [hy]; rfl, fun i j => hxy j i⟩

theorem NearM.or {n : ℕ} {o o' p p' : Option (M3 K)} (h : NearM u n o o') (hn : o'.isSome = o.isSome) (g : NearM u n p p') :
    NearM u n (o.or p) (o'.or p') := by
  cases o with
  | none =>
    cases o' with
    | none => simpa using g
    | some y => simp at hn
  | some x =>
    intro x' hx'
    obtain ⟨y, hy, hxy⟩ := h x rfl
    have hx2 : x = x' := by simpa using hx'
    exact ⟨y, by simp [hy], by rw [← hx2]; exact hxy⟩

theorem Near.mono (h0 : 0 ≤ u) (h1 : u < 1) {we' wo' : ℕ} (he : we ≤ we') (ho : wo ≤ wo') (h : Near u we wo s t) :
    Near u we' wo' s t :=
  { h with valE := fun b => (h.valE b).mono h0 h1 he, valO := fun a => (h.valO a).mono h0 h1 ho }

theorem Near.refl (hs : s.Sound) : Near u 0 0 s s :=
  ⟨hs.keys, hs.refer, hs.alloc, hs.noShare, rfl, rfl, fun _ x hx => ⟨x, hx, fun _ _ => .refl _⟩,
    fun _ x hx => ⟨x, hx, fun _ _ => .refl _⟩⟩

theorem NearR.andThen (h0 : 0 ≤ u) (h1 : u < 1) {we' wo' : ℕ} (he : we ≤ we') (ho : wo ≤ wo') {r r' : Res (St K)}
    (h : NearR u we wo r r') {f f' : St K → Res (St K)} (hf : r.err = none → Near u we wo r.st r'.st → NearR u we' wo' (f r.st) (f' r'.st)) :
    NearR u we' wo' (r.andThen f) (r'.andThen f') := by
  unfold Res.andThen
  rw [h.1]
  cases hr : r.err with
  | none => exact hf hr h.2
  | some e => exact ⟨h.1.trans rfl, h.2.mono h0 h1 he ho⟩

theorem write_valE (s : St K) (r : ℕ) (m : M3 K) (b : Bond) :
    (s.write r m).valE b = if s.exch.get? b = some r then some m else s.valE b := by
  unfold valE write
  cases h : s.exch.get? b with
  | none => simp
  | some q =>
    by_cases hq : q = r
    · subst hq; simp
    · simp [hq]

theorem write_valO (s : St K) (r : ℕ) (m : M3 K) (a : Atom) :
    (s.write r m).valO a = if s.onSite.get? a = some r then some m else s.valO a := by
  unfold valO write
  cases h : s.onSite.get? a with
  | none => simp
  | some q =>
    by_cases hq : q = r
    · subst hq; simp
    · simp [hq]

/-- What a factor of the exact program and an operation of the program with rounding have to do with each other. -/
def Follows (u : K) (k : ℕ) : Except PyErr K → Except PyErr (K → K) → Prop
  | .error e, .error e' => e' = e
  | .ok x, .ok f => ∀ w x0 y0, Rounded u w x0 y0 → Rounded u (w + k) (x * x0) (f y0)
  | _, _ => False

theorem scaleExch_near (h0 : 0 ≤ u) (h1 : u < 1) {k : ℕ} {c : Bond → St K → Except PyErr K}
    {c' : Bond → St K → Except PyErr (K → K)} (hc : ∀ b (s t : St K), t.toHam = s.toHam → Follows u k (c b s) (c' b t))
    (h : Near u we wo s t) : NearR u (we + k) wo (s.scaleExch c) (t.scaleExchFl c') := by
  have he : t.exch = s.exch := congrArg Ham.exch h.ham
  unfold scaleExch scaleExchFl
  rw [he]
  have hl := h.keys.exch
  have hw : ∀ b ∈ s.exch.keys, NearM u we (s.valE b) (t.valE b) := fun b _ => h.valE b
  replace h := h.mono h0 h1 (Nat.le_add_right we k) le_rfl
  generalize s.exch.keys = l at hl hw
  clear he
  induction l generalizing s t with
  | nil => exact ⟨rfl, h⟩
  | cons b l ih =>
    have he : t.exch = s.exch := congrArg Ham.exch h.ham
    unfold forEach imulBond imulBondFl
    rw [he]
    cases hb : s.exch.get? b with
    | none => exact ⟨rfl, h⟩
    | some r =>
      have hcb := hc b s t h.ham
      simp only
      cases hx : c b s with
      | error e =>
        cases hy : c' b t with
        | error e' =>
          rw [hx, hy] at hcb
          cases hcb
          exact ⟨rfl, h⟩
        | ok f => rw [hx, hy] at hcb; exact hcb.elim
      | ok x =>
        cases hy : c' b t with
        | error e' => rw [hx, hy] at hcb; exact hcb.elim
        | ok f =>
          rw [hx, hy] at hcb
          simp only [Res.ok_andThen]
          have hbw := hw b (by simp)
          have hsb : s.valE b = some (s.cell r) := by rw [valE, hb]; rfl
          have htb : t.valE b = some (t.cell r) := by rw [valE, he, hb]; rfl
          obtain ⟨y, hy1, hy2⟩ := hbw _ hsb
          rw [htb, Option.some.injEq] at hy1
          subst hy1
          have hne : ∀ b' ∈ l, s.exch.get? b' ≠ some r := fun b' hb' e => by
            have := h.noShare.exch _ _ _ e hb
            subst this
            exact (List.nodup_cons.1 hl).1 hb'
          refine ih (s := s.write r (x • s.cell r)) (t := t.write r ((t.cell r).map f)) ?_ (List.nodup_cons.1 hl).2 ?_
          · exact ⟨⟨h.keys.exch, h.keys.site⟩, ⟨h.refer.exch, h.refer.site⟩, ⟨h.alloc.exch, h.alloc.site⟩,
              ⟨h.noShare.exch, h.noShare.site, h.noShare.cross⟩, h.ham, h.next, fun b' => by
                rw [write_valE, write_valE, he]
                split_ifs
                · intro z hz
                  cases hz
                  exact ⟨_, rfl, fun i j => hcb _ _ _ (hy2 i j)⟩
                · exact h.valE b', fun a => by
                rw [write_valO, write_valO, (congrArg Ham.onSite h.ham : t.onSite = s.onSite),
                  if_neg fun e => h.noShare.cross _ _ _ hb e, if_neg fun e => h.noShare.cross _ _ _ hb e]
                exact h.valO a⟩
          · intro b' hb'
            rw [write_valE, write_valE, he, if_neg (hne b' hb'), if_neg (hne b' hb')]
            exact hw b' (by simp [hb'])

theorem scaleSite_near (h0 : 0 ≤ u) (h1 : u < 1) {k : ℕ} {c : Atom → St K → Except PyErr K}
    {c' : Atom → St K → Except PyErr (K → K)} (hc : ∀ b (s t : St K), t.toHam = s.toHam → Follows u k (c b s) (c' b t))
    (h : Near u we wo s t) : NearR u we (wo + k) (s.scaleSite c) (t.scaleSiteFl c') := by
  have he : t.onSite = s.onSite := congrArg Ham.onSite h.ham
  unfold scaleSite scaleSiteFl
  rw [he]
  have hl := h.keys.site
  have hw : ∀ b ∈ s.onSite.keys, NearM u wo (s.valO b) (t.valO b) := fun b _ => h.valO b
  replace h := h.mono h0 h1 le_rfl (Nat.le_add_right wo k)
  generalize s.onSite.keys = l at hl hw
  clear he
  induction l generalizing s t with
  | nil => exact ⟨rfl, h⟩
  | cons b l ih =>
    have he : t.onSite = s.onSite := congrArg Ham.onSite h.ham
    unfold forEach imulSite imulSiteFl
    rw [he]
    cases hb : s.onSite.get? b with
    | none => exact ⟨rfl, h⟩
    | some r =>
      have hcb := hc b s t h.ham
      simp only
      cases hx : c b s with
      | error e =>
        cases hy : c' b t with
        | error e' =>
          rw [hx, hy] at hcb
          cases hcb
          exact ⟨rfl, h⟩
        | ok f => rw [hx, hy] at hcb; exact hcb.elim
      | ok x =>
        cases hy : c' b t with
        | error e' => rw [hx, hy] at hcb; exact hcb.elim
        | ok f =>
          rw [hx, hy] at hcb
          simp only [Res.ok_andThen]
          have hbw := hw b (by simp)
          have hsb : s.valO b = some (s.cell r) := by rw [valO, hb]; rfl
          have htb : t.valO b = some (t.cell r) := by rw [valO, he, hb]; rfl
          obtain ⟨y, hy1, hy2⟩ := hbw _ hsb
          rw [htb, Option.some.injEq] at hy1
          subst hy1
          have hne : ∀ b' ∈ l, s.onSite.get? b' ≠ some r := fun b' hb' e => by
            have := h.noShare.site _ _ _ e hb
            subst this
            exact (List.nodup_cons.1 hl).1 hb'
          refine ih (s := s.write r (x • s.cell r)) (t := t.write r ((t.cell r).map f)) ?_ (List.nodup_cons.1 hl).2 ?_
          · exact ⟨⟨h.keys.exch, h.keys.site⟩, ⟨h.refer.exch, h.refer.site⟩, ⟨h.alloc.exch, h.alloc.site⟩,
              ⟨h.noShare.exch, h.noShare.site, h.noShare.cross⟩, h.ham, h.next, fun b' => by
                rw [write_valE, write_valE, (congrArg Ham.exch h.ham : t.exch = s.exch),
                  if_neg fun e => h.noShare.cross _ _ _ e hb, if_neg fun e => h.noShare.cross _ _ _ e hb]
                exact h.valE b', fun a => by
                rw [write_valO, write_valO, he]
                split_ifs
                · intro z hz
                  cases hz
                  exact ⟨_, rfl, fun i j => hcb _ _ _ (hy2 i j)⟩
                · exact h.valO a⟩
          · intro b' hb'
            rw [write_valO, write_valO, he, if_neg (hne b' hb'), if_neg (hne b' hb')]
            exact hw b' (by simp [hb'])

/-! ### Double counting -/

theorem collectMirrors_congr (d : PyDict Bond ℕ) {s t : St K} (h : t.next = s.next) :
    (collectMirrors d t).2 = (collectMirrors d s).2 ∧ (collectMirrors d t).1.next = (collectMirrors d s).1.next := by
  induction d generalizing s t with
  | nil => exact ⟨rfl, h⟩
  | cons p d ih =>
    obtain ⟨b, r⟩ := p
    have := ih (s := (s.alloc (Param.T (s.cell r))).1) (t := (t.alloc (Param.T (t.cell r))).1) (by simp [alloc, h])
    unfold collectMirrors
    simp only
    refine ⟨?_, this.2⟩
    rw [this.1]
    simp [alloc, h]

theorem isSome_valE_congr {s t : St K} (h : t.exch = s.exch) (b : Bond) : (t.valE b).isSome = (s.valE b).isSome := by
  unfold valE
  rw [h]
  simp

theorem ensureDC_near (h : Near u we wo s t) : NearR u we wo (ensureDC s) (ensureDC t) := by
  have he : t.exch = s.exch := congrArg Ham.exch h.ham
  have hk : t.KeysNodup := ⟨by rw [he]; exact h.keys.exch, by rw [(congrArg Ham.onSite h.ham : t.onSite = s.onSite)]; exact h.keys.site⟩
  have ha : t.Alloc := ⟨by rw [he, h.next]; exact h.alloc.exch,
    by rw [(congrArg Ham.onSite h.ham : t.onSite = s.onSite), h.next]; exact h.alloc.site⟩
  rw [ensureDC_eq h.refer, ensureDC_eq (h.refer.congr h.ham)]
  refine ⟨rfl, ensuredDC_keysNodup h.keys, ensuredDC_refer h.keys h.refer, ensuredDC_alloc h.keys h.alloc,
    ensuredDC_noShare h.keys h.alloc h.noShare, ?_, ?_, fun b => ?_, fun a => ?_⟩
  · have c1 := (collectMirrors_spec t.exch t).1
    have c2 := (collectMirrors_spec s.exch s).1
    have c3 := (collectMirrors_congr s.exch h.next).1
    show ({ (collectMirrors t.exch t).1.toHam with exch := t.exch.setAll (collectMirrors t.exch t).2 } : Ham K) =
      { (collectMirrors s.exch s).1.toHam with exch := s.exch.setAll (collectMirrors s.exch s).2 }
    rw [c1, c2, he, c3, h.ham]
  · show t.ensuredDC.next = s.ensuredDC.next
    rw [ensuredDC_next, ensuredDC_next, he, h.next]
  · show NearM u we (s.ensuredDC.valE b) (t.ensuredDC.valE b)
    rw [ensuredDC_valE h.keys h.alloc, ensuredDC_valE hk ha]
    exact (h.valE b.mirror).transpose.or (by rw [Option.isSome_map, Option.isSome_map, isSome_valE_congr he]) (h.valE b)
  · show NearM u wo (s.ensuredDC.valO a) (t.ensuredDC.valO a)
    rw [ensuredDC_valO h.alloc, ensuredDC_valO ha]
    exact h.valO a

theorem collectRemovals_congr {s t : St K} (h : t.exch = s.exch) (l : List Bond) : t.collectRemovals l = s.collectRemovals l := by
  induction l with
  | nil => rfl
  | cons b l ih =>
    unfold collectRemovals
    rw [ih, h]

theorem ensureNoDC_near (h : Near u we wo s t) (hd : s.dc ≠ some true) : NearR u we wo (ensureNoDC s) (ensureNoDC t) := by
  have he : t.exch = s.exch := congrArg Ham.exch h.ham
  have hd' : t.dc ≠ some true := by rw [(congrArg Ham.dc h.ham : t.dc = s.dc)]; exact hd
  cases hr : s.collectRemovals s.exch.keys with
  | error e =>
    have hr' : t.collectRemovals t.exch.keys = .error e := by rw [collectRemovals_congr he, he, hr]
    unfold ensureNoDC
    rw [hr, hr']
    exact ⟨rfl, h⟩
  | ok rem =>
    have hr' : t.collectRemovals t.exch.keys = .ok rem := by rw [collectRemovals_congr he, he, hr]
    rw [ensureNoDC_eq hd hr, ensureNoDC_eq hd' hr']
    have hi := ensuredNoDC_inv h.keys rem
    refine ⟨rfl, hi.1, hi.2.2.2 h.refer, hi.2.1 h.alloc, hi.2.2.1 h.noShare, ?_, h.next, fun b => ?_, h.valO⟩
    · show ({ t.toHam with exch := t.exch.delAll rem } : Ham K) = { s.toHam with exch := s.exch.delAll rem }
      rw [h.ham]
    · intro x hx
      have hx' : ((s.exch.delAll rem).get? b).map s.cell = some x := hx
      have hy : (t.ensuredNoDC rem).valE b = ((s.exch.delAll rem).get? b).map t.cell := by
        show ((t.exch.delAll rem).get? b).map t.cell = _
        rw [he]
      obtain ⟨r, hr1, hr2⟩ := Option.map_eq_some_iff.1 hx'
      have hs : s.exch.get? b = some r := ensuredNoDC_sub h.keys (rem := rem) hr1
      obtain ⟨y, hy1, hy2⟩ := h.valE b x (by rw [valE, hs, Option.map_some, hr2])
      rw [valE, he, hs, Option.map_some, Option.some.injEq] at hy1
      exact ⟨y, by rw [Res.st_ok, hy, hr1, Option.map_some, hy1], hy2⟩

theorem Near.flags (h : Near u we wo s t) (d n : Option Bool) (e o : Option K) :
    Near u we wo { s with dc := d, sn := n, ef := e, osf := o } { t with dc := d, sn := n, ef := e, osf := o } :=
  ⟨⟨h.keys.exch, h.keys.site⟩, ⟨h.refer.exch, h.refer.site⟩, ⟨h.alloc.exch, h.alloc.site⟩,
    ⟨h.noShare.exch, h.noShare.site, h.noShare.cross⟩,
    congrArg (fun x : Ham K => { x with dc := d, sn := n, ef := e, osf := o }) h.ham, h.next, h.valE, h.valO⟩

/-! ### The setters -/

theorem follows_mul (hf : IsRounding fl u) (p : K) (hp : Rounded u 0 p p) : ∀ w x0 y0, Rounded u w x0 y0 →
    Rounded u (w + 1) (p * x0) (fl (y0 * p)) := fun w x0 y0 h => by
  rw [mul_comm p]
  exact Rounded.fl_mul hf h hp

theorem setDC_near (hf : IsRounding fl u) (new : Bool) (h : Near u we wo s t) :
    NearR u (we + 1) wo (s.setDC new) (t.setDCFl fl new) := by
  have h0 := hf.nonneg
  have h1 := hf.lt
  have hd : t.dc = s.dc := congrArg Ham.dc h.ham
  have hfl : Near u we wo { s with dc := some new } { t with dc := some new } :=
    ⟨⟨h.keys.exch, h.keys.site⟩, ⟨h.refer.exch, h.refer.site⟩, ⟨h.alloc.exch, h.alloc.site⟩,
      ⟨h.noShare.exch, h.noShare.site, h.noShare.cross⟩,
      congrArg (fun x : Ham K => { x with dc := some new }) h.ham, h.next, h.valE, h.valO⟩
  unfold setDC setDCFl
  simp only
  rw [hd]
  have step : ∀ {r r' : Res (St K)}, NearR u (we + 1) wo r r' → (r.err = none → r.st.dc = some new) →
      NearR u (we + 1) wo (r.andThen (if new then ensureDC else ensureNoDC)) (r'.andThen (if new then ensureDC else ensureNoDC)) := by
    intro r r' hr hdc
    refine hr.andThen h0 h1 le_rfl le_rfl fun hn g => ?_
    cases new with
    | true => exact ensureDC_near g
    | false => exact ensureNoDC_near g (by rw [hdc hn]; simp)
  have frame : ∀ (c : Bond → St K → Except PyErr K) (s : St K), (s.scaleExch c).st.dc = s.dc := by
    intro c s
    refine forEach_inv (P := fun t : St K => t.dc = s.dc) (fun b t ht => ?_) _ _ rfl
    unfold imulBond
    split
    · exact ht
    · split <;> exact ht
  by_cases a1 : s.dc = some true ∧ new = false
  · rw [if_pos a1, if_pos a1]
    exact step (scaleExch_near h0 h1 (fun _ _ _ _ => follows_mul hf 2 (.refl 2)) hfl) fun _ => frame _ _
  · rw [if_neg a1, if_neg a1]
    by_cases a2 : s.dc = some false ∧ new = true
    · rw [if_pos a2, if_pos a2]
      exact step (scaleExch_near h0 h1 (fun _ _ _ _ => follows_mul hf (1 / 2) (.refl _)) hfl) fun _ => frame _ _
    · rw [if_neg a2, if_neg a2]
      exact step ⟨rfl, hfl.mono h0 h1 (Nat.le_succ _) le_rfl⟩ fun _ => rfl

theorem spinProd_congr (h : t.toHam = s.toHam) (a b : Atom) : t.spinProd a b = s.spinProd a b := by
  have e : t.spin = s.spin := congrArg Ham.spin h
  simp [spinProd, spinOf, e]

theorem follows_spin_mul (hf : IsRounding fl u) (h : t.toHam = s.toHam) (a b : Atom) :
    Follows u 2 (s.spinProd a b) ((t.spinProd a b).map fun p x => fl (x * fl p)) := by
  rw [spinProd_congr h]
  cases s.spinProd a b with
  | error e => rfl
  | ok p =>
    intro w x0 y0 hw
    rw [mul_comm p]
    exact Rounded.fl_mul hf hw (Rounded.one hf p)

theorem follows_spin_div (hf : IsRounding fl u) (h : t.toHam = s.toHam) (a b : Atom) :
    Follows u 2 ((s.spinProd a b).map fun x => x⁻¹) ((t.spinProd a b).map fun p x => fl (x / fl p)) := by
  rw [spinProd_congr h]
  cases s.spinProd a b with
  | error e => rfl
  | ok p =>
    intro w x0 y0 hw
    show Rounded u (w + 2) (p⁻¹ * x0) (fl (y0 / fl p))
    rw [mul_comm p⁻¹, div_eq_mul_inv]
    exact Rounded.fl_mul hf hw ((Rounded.one hf p).inv hf.lt)

theorem follows_ratio (hf : IsRounding fl u) (old new : K) :
    Follows u 2 (ratio old new) ((ratio old new).map fun q x => fl (x * fl q)) := by
  cases ratio old new with
  | error e => rfl
  | ok q =>
    intro w x0 y0 hw
    rw [mul_comm q]
    exact Rounded.fl_mul hf hw (Rounded.one hf q)

theorem setSN_near (hf : IsRounding fl u) (new : Bool) (h : Near u we wo s t) :
    NearR u (we + 2) (wo + 2) (s.setSN new) (t.setSNFl fl new) := by
  have h0 := hf.nonneg
  have h1 := hf.lt
  have hd : t.sn = s.sn := congrArg Ham.sn h.ham
  have hle : wo ≤ wo + 2 := Nat.le_add_right _ _
  unfold setSN setSNFl
  simp only
  rw [hd]
  have fin : ∀ {r r' : Res (St K)}, NearR u (we + 2) (wo + 2) r r' →
      NearR u (we + 2) (wo + 2) (r.andThen fun t => .ok { t with sn := some new }) (r'.andThen fun t => .ok { t with sn := some new }) := by
    intro r r' hr
    refine hr.andThen h0 h1 le_rfl le_rfl fun _ g => ⟨rfl, ?_⟩
    exact ⟨⟨g.keys.exch, g.keys.site⟩, ⟨g.refer.exch, g.refer.site⟩, ⟨g.alloc.exch, g.alloc.site⟩,
      ⟨g.noShare.exch, g.noShare.site, g.noShare.cross⟩,
      congrArg (fun x : Ham K => { x with sn := some new }) g.ham, g.next, g.valE, g.valO⟩
  by_cases a1 : s.sn = some true ∧ new = false
  · rw [if_pos a1, if_pos a1]
    refine fin ((scaleExch_near h0 h1 (fun b _ _ e => follows_spin_div hf e b.1 b.2.1) h).andThen h0 h1 le_rfl hle fun _ g => ?_)
    exact scaleSite_near h0 h1 (fun a _ _ e => follows_spin_div hf e a a) g
  · rw [if_neg a1, if_neg a1]
    by_cases a2 : s.sn = some false ∧ new = true
    · rw [if_pos a2, if_pos a2]
      refine fin ((scaleExch_near h0 h1 (fun b _ _ e => follows_spin_mul hf e b.1 b.2.1) h).andThen h0 h1 le_rfl hle fun _ g => ?_)
      exact scaleSite_near h0 h1 (fun a _ _ e => follows_spin_mul hf e a a) g
    · rw [if_neg a2, if_neg a2]
      exact fin ⟨rfl, h.mono h0 h1 (Nat.le_add_right _ _) hle⟩

theorem setEF_near (hf : IsRounding fl u) (new : K) (h : Near u we wo s t) :
    NearR u (we + 2) wo (s.setEF new) (t.setEFFl fl new) := by
  have h0 := hf.nonneg
  have h1 := hf.lt
  have hd : t.ef = s.ef := congrArg Ham.ef h.ham
  unfold setEF setEFFl
  simp only
  rw [hd]
  refine NearR.andThen (we := we + 2) (wo := wo) h0 h1 le_rfl le_rfl ?_ fun _ g => ⟨rfl, ?_⟩
  · cases s.ef with
    | none => exact ⟨rfl, h.mono h0 h1 (Nat.le_add_right _ _) le_rfl⟩
    | some old =>
      simp only
      by_cases e : old ≠ new
      · rw [if_pos e, if_pos e]
        exact scaleExch_near h0 h1 (fun _ _ _ _ => follows_ratio hf old new) h
      · rw [if_neg e, if_neg e]
        exact ⟨rfl, h.mono h0 h1 (Nat.le_add_right _ _) le_rfl⟩
  · exact ⟨⟨g.keys.exch, g.keys.site⟩, ⟨g.refer.exch, g.refer.site⟩, ⟨g.alloc.exch, g.alloc.site⟩,
      ⟨g.noShare.exch, g.noShare.site, g.noShare.cross⟩,
      congrArg (fun x : Ham K => { x with ef := some new }) g.ham, g.next, g.valE, g.valO⟩

theorem setOF_near (hf : IsRounding fl u) (new : K) (h : Near u we wo s t) :
    NearR u we (wo + 2) (s.setOF new) (t.setOFFl fl new) := by
  have h0 := hf.nonneg
  have h1 := hf.lt
  have hd : t.osf = s.osf := congrArg Ham.osf h.ham
  unfold setOF setOFFl
  simp only
  rw [hd]
  refine NearR.andThen (we := we) (wo := wo + 2) h0 h1 le_rfl le_rfl ?_ fun _ g => ⟨rfl, ?_⟩
  · cases s.osf with
    | none => exact ⟨rfl, h.mono h0 h1 le_rfl (Nat.le_add_right _ _)⟩
    | some old =>
      simp only
      by_cases e : old ≠ new
      · rw [if_pos e, if_pos e]
        exact scaleSite_near h0 h1 (fun _ _ _ _ => follows_ratio hf old new) h
      · rw [if_neg e, if_neg e]
        exact ⟨rfl, h.mono h0 h1 le_rfl (Nat.le_add_right _ _)⟩
  · exact ⟨⟨g.keys.exch, g.keys.site⟩, ⟨g.refer.exch, g.refer.site⟩, ⟨g.alloc.exch, g.alloc.site⟩,
      ⟨g.noShare.exch, g.noShare.site, g.noShare.cross⟩,
      congrArg (fun x : Ham K => { x with osf := some new }) g.ham, g.next, g.valE, g.valO⟩

theorem setFour_near (hf : IsRounding fl u) (d n : Bool) (e o : K) (h : Near u we wo s t) :
    NearR u (we + 5) (wo + 4) (s.setFour d n e o) (t.setFourFl fl d n e o) := by
  have h0 := hf.nonneg
  have h1 := hf.lt
  unfold setFour setFourFl
  refine NearR.andThen (we := we + 5) (wo := wo + 2) h0 h1 le_rfl (by omega) ?_ fun _ g => setOF_near hf o g
  refine NearR.andThen (we := we + 3) (wo := wo + 2) h0 h1 (by omega) le_rfl ?_ fun _ g => setEF_near hf e g
  refine NearR.andThen (we := we + 1) (wo := wo) h0 h1 (by omega) (by omega) (setDC_near hf d h) fun _ g => setSN_near hf n g

theorem setNotation_near (hf : IsRounding fl u) (a : NotationArg K) (h : Near u we wo s t) :
    NearR u (we + 5) (wo + 4) (s.setNotation a) (t.setNotationFl fl a) := by
  have hm := h.mono hf.nonneg hf.lt (Nat.le_add_right we 5) (Nat.le_add_right wo 4)
  cases a with
  | str n =>
    unfold setNotation setNotationFl
    simp only
    cases predefined (K := K) n.toLower with
    | some q => exact setFour_near hf _ _ _ _ h
    | none => exact ⟨rfl, hm⟩
  | other => exact ⟨rfl, hm⟩
  | seq l =>
    rcases l with _ | ⟨a, _ | ⟨b, _ | ⟨c, _ | ⟨d, _ | ⟨e, l⟩⟩⟩⟩⟩
    · exact ⟨rfl, hm⟩
    · exact ⟨rfl, hm⟩
    · exact ⟨rfl, hm⟩
    · exact setFour_near hf _ _ _ _ h
    · exact setFour_near hf _ _ _ _ h
    · exact ⟨rfl, hm⟩

theorem step_near (hf : IsRounding fl u) (op : Op K) (hop : op.Renotes) (h : Near u we wo s t) :
    NearR u (we + op.roundE) (wo + op.roundO) (op.step s) (op.stepFl fl t) := by
  cases op with
  | setDC b => exact setDC_near hf b h
  | setSN b => exact setSN_near hf b h
  | setEF x => exact setEF_near hf x h
  | setOF x => exact setOF_near hf x h
  | setNotation a => exact setNotation_near hf a h
  | _ => exact absurd hop (by simp [Op.Renotes])

theorem run_near (hf : IsRounding fl u) (ops : List (Op K)) (hops : ∀ o ∈ ops, o.Renotes) (h : Near u we wo s t) :
    Near u (we + (ops.map Op.roundE).sum) (wo + (ops.map Op.roundO).sum) (runOps ops s) (runFl fl ops t) := by
  induction ops generalizing s t we wo with
  | nil => exact h
  | cons o os ih =>
    have h1 := (step_near hf o (hops o (by simp)) h).2
    have := ih (fun o ho => hops o (by simp [ho])) h1
    rw [List.map_cons, List.sum_cons, List.map_cons, List.sum_cons, ← Nat.add_assoc, ← Nat.add_assoc]
    exact this

end St
end Magnopy
