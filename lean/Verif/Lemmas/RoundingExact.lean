import Verif.Lemmas.Rounding
import Mathlib.Tactic.NormNum
import Mathlib.Tactic.Positivity
import Mathlib.Algebra.Order.BigOperators.Group.Finset

/-!
# Helper lemmas: operations that need no rounding; energies of rounded Hamiltonians; rounding of binary numbers
-/

set_option autoImplicit false

set_option linter.unusedSectionVars false

namespace Magnopy

open PyDict

variable {K : Type*} [Field K] [LinearOrder K] [IsStrictOrderedRing K]

/-! ### Powers of two -/

namespace Dyadic

theorem inv {x : K} (h : Dyadic x) : Dyadic x⁻¹ := by
  obtain ⟨k, rfl | rfl⟩ := h
  · exact ⟨-k, .inl (by rw [zpow_neg])⟩
  · exact ⟨-k, .inr (by rw [zpow_neg, inv_neg])⟩

theorem mul {x y : K} (h : Dyadic x) (g : Dyadic y) : Dyadic (x * y) := by
  have h2 : (2 : K) ≠ 0 := two_ne_zero
  obtain ⟨k, rfl | rfl⟩ := h <;> obtain ⟨l, rfl | rfl⟩ := g <;> refine ⟨k + l, ?_⟩ <;> rw [zpow_add₀ h2] <;> simp

theorem div {x y : K} (h : Dyadic x) (g : Dyadic y) : Dyadic (x / y) := by
  rw [div_eq_mul_inv]
  exact h.mul g.inv

theorem two : Dyadic (2 : K) := ⟨1, .inl (by simp)⟩

theorem half : Dyadic (1 / 2 : K) := ⟨-1, .inl (by simp)⟩

theorem one : Dyadic (1 : K) := ⟨0, .inl (by simp)⟩

end Dyadic

namespace IsBinary

variable {fl : K → K}

theorem pow (h : IsBinary fl) (x : K) (n : ℕ) : fl (x * 2 ^ n) = fl x * 2 ^ n := by
  induction n with
  | zero => simp
  | succ n ih => rw [pow_succ, ← mul_assoc, h.two, ih, mul_assoc]

theorem zpow (h : IsBinary fl) (x : K) (k : ℤ) : fl (x * 2 ^ k) = fl x * 2 ^ k := by
  have h2 : (2 : K) ≠ 0 := two_ne_zero
  cases k with
  | ofNat n => simpa using h.pow x n
  | negSucc n =>
    rw [zpow_negSucc, ← div_eq_mul_inv, ← div_eq_mul_inv, eq_div_iff (pow_ne_zero _ h2), ← h.pow, div_mul_cancel₀ _ (pow_ne_zero _ h2)]

theorem mul (h : IsBinary fl) (x : K) {q : K} (hq : Dyadic q) : fl (x * q) = fl x * q := by
  obtain ⟨k, rfl | rfl⟩ := hq
  · exact h.zpow x k
  · rw [mul_neg, h.neg, h.zpow, mul_neg]

theorem dyadic (h : IsBinary fl) {q : K} (hq : Dyadic q) : fl q = q := by
  have := h.mul 1 hq
  rwa [one_mul, h.one, one_mul] at this

end IsBinary

/-! ### Operations without rounding -/

namespace St

variable {fl : K → K} {s : St K}

/-- All objects hold floats. -/
def Floats (fl : K → K) (s : St K) : Prop := ∀ r i j, fl (s.cell r i j) = s.cell r i j

theorem Floats.write (h : s.Floats fl) (r : ℕ) {m : M3 K} (hm : ∀ i j, fl (m i j) = m i j) : (s.write r m).Floats fl := by
  intro q i j
  show fl (Function.update s.cell r m q i j) = Function.update s.cell r m q i j
  by_cases hq : q = r
  · subst hq
    rw [Function.update_self]
    exact hm i j
  · rw [Function.update_of_ne hq]
    exact h q i j

theorem Floats.alloc (h : s.Floats fl) {m : M3 K} (hm : ∀ i j, fl (m i j) = m i j) : (s.alloc m).1.Floats fl := by
  intro q i j
  show fl (Function.update s.cell s.next m q i j) = Function.update s.cell s.next m q i j
  by_cases hq : q = s.next
  · subst hq
    rw [Function.update_self]
    exact hm i j
  · rw [Function.update_of_ne hq]
    exact h q i j

/-- What has to hold for assignments to the notation to need no rounding: all numbers are floats, factors are powers of two, and
spins are powers of two (`any`) unless `spin_normalized` stays `n0`. -/
structure Exact (fl : K → K) (any : Prop) (n0 : Bool) (s : St K) : Prop where
  floats : s.Floats fl
  ef : ∀ x, s.ef = some x → Dyadic x
  osf : ∀ x, s.osf = some x → Dyadic x
  spin : any → ∀ a x, s.spin a = some x → Dyadic x
  flag : any ∨ s.sn = some n0

theorem exact_ensureDC {any : Prop} {n0 : Bool} (h : s.Exact fl any n0) : (ensureDC s).st.Exact fl any n0 := by
  have hc : ∀ (d : PyDict Bond ℕ) (s : St K), s.Exact fl any n0 → (collectMirrors d s).1.Exact fl any n0 := by
    intro d
    induction d with
    | nil => exact fun s h => h
    | cons p d ih => exact fun s h => ih _ ⟨h.floats.alloc fun i j => h.floats p.2 j i, h.ef, h.osf, h.spin, h.flag⟩
  unfold ensureDC
  refine forEach_inv (P := Exact fl any n0) (fun p t ht => ?_) _ _ (hc s.exch s h)
  have hput : ∀ (t : St K) (b : Bond) (r : ℕ), t.Exact fl any n0 → (t.putBond b r).Exact fl any n0 := by
    intro t b r ht
    unfold putBond
    simp only
    split
    · exact ⟨Floats.alloc (s := { t with exch := _ }) ht.floats fun i j => ht.floats r j i, ht.ef, ht.osf, ht.spin, ht.flag⟩
    · exact ⟨ht.floats, ht.ef, ht.osf, ht.spin, ht.flag⟩
  unfold addExchange
  simp only [findOrAdd]
  split_ifs <;> exact hput _ _ _ ⟨ht.floats, ht.ef, ht.osf, ht.spin, ht.flag⟩

theorem exact_ensureNoDC {any : Prop} {n0 : Bool} (h : s.Exact fl any n0) : (ensureNoDC s).st.Exact fl any n0 := by
  unfold ensureNoDC
  split
  · exact h
  · refine forEach_inv (P := Exact fl any n0) (fun p t ht => ?_) _ _ h
    simp only [removeExchange, find]
    unfold dropBond
    split
    · exact ht
    · simp only
      split_ifs <;> exact ⟨ht.floats, ht.ef, ht.osf, ht.spin, ht.flag⟩

/-- A factor and an operation that needs no rounding. -/
def Same (fl : K → K) : Except PyErr K → Except PyErr (K → K) → Prop
  | .error e, .error e' => e' = e
  | .ok x, .ok f => ∀ y, fl y = y → f y = x * y ∧ fl (x * y) = x * y
  | _, _ => False

theorem scaleExch_same {c : Bond → St K → Except PyErr K} {c' : Bond → St K → Except PyErr (K → K)}
    (hc : ∀ b (t : St K), t.toHam = s.toHam → Same fl (c b t) (c' b t)) (h : s.Floats fl) :
    s.scaleExchFl c' = s.scaleExch c ∧ (s.scaleExch c).st.Floats fl := by
  unfold scaleExch scaleExchFl
  generalize s.exch.keys = l
  induction l generalizing s with
  | nil => exact ⟨rfl, h⟩
  | cons b l ih =>
    unfold forEach imulBond imulBondFl
    cases hb : s.exch.get? b with
    | none => exact ⟨rfl, h⟩
    | some r =>
      have hcb := hc b s rfl
      simp only
      cases hx : c b s with
      | error e =>
        cases hy : c' b s with
        | error e' =>
          rw [hx, hy] at hcb
          cases hcb
          exact ⟨rfl, h⟩
        | ok f => rw [hx, hy] at hcb; exact hcb.elim
      | ok x =>
        cases hy : c' b s with
        | error e' => rw [hx, hy] at hcb; exact hcb.elim
        | ok f =>
          rw [hx, hy] at hcb
          simp only [Res.ok_andThen]
          have e : (s.cell r).map f = x • s.cell r := by
            ext i j
            exact (hcb _ (h r i j)).1
          rw [e]
          exact ih (s := s.write r (x • s.cell r)) hc (h.write r fun i j => (hcb _ (h r i j)).2)

theorem scaleSite_same {c : Atom → St K → Except PyErr K} {c' : Atom → St K → Except PyErr (K → K)}
    (hc : ∀ b (t : St K), t.toHam = s.toHam → Same fl (c b t) (c' b t)) (h : s.Floats fl) :
    s.scaleSiteFl c' = s.scaleSite c ∧ (s.scaleSite c).st.Floats fl := by
  unfold scaleSite scaleSiteFl
  generalize s.onSite.keys = l
  induction l generalizing s with
  | nil => exact ⟨rfl, h⟩
  | cons b l ih =>
    unfold forEach imulSite imulSiteFl
    cases hb : s.onSite.get? b with
    | none => exact ⟨rfl, h⟩
    | some r =>
      have hcb := hc b s rfl
      simp only
      cases hx : c b s with
      | error e =>
        cases hy : c' b s with
        | error e' =>
          rw [hx, hy] at hcb
          cases hcb
          exact ⟨rfl, h⟩
        | ok f => rw [hx, hy] at hcb; exact hcb.elim
      | ok x =>
        cases hy : c' b s with
        | error e' => rw [hx, hy] at hcb; exact hcb.elim
        | ok f =>
          rw [hx, hy] at hcb
          simp only [Res.ok_andThen]
          have e : (s.cell r).map f = x • s.cell r := by
            ext i j
            exact (hcb _ (h r i j)).1
          rw [e]
          exact ih (s := s.write r (x • s.cell r)) hc (h.write r fun i j => (hcb _ (h r i j)).2)

theorem same_mul (hb : IsBinary fl) {q : K} (hq : Dyadic q) : ∀ y, fl y = y → fl (y * q) = q * y ∧ fl (q * y) = q * y :=
  fun y hy => by
    rw [mul_comm q, hb.mul y hq, hy]
    exact ⟨rfl, rfl⟩

theorem scaleExch_frame (c : Bond → St K → Except PyErr K) (s : St K) : (s.scaleExch c).st.toHam = s.toHam := by
  refine forEach_inv (P := fun t : St K => t.toHam = s.toHam) (fun b t ht => ?_) _ _ rfl
  unfold imulBond
  split
  · exact ht
  · split <;> exact ht

theorem scaleSite_frame (c : Atom → St K → Except PyErr K) (s : St K) : (s.scaleSite c).st.toHam = s.toHam := by
  refine forEach_inv (P := fun t : St K => t.toHam = s.toHam) (fun b t ht => ?_) _ _ rfl
  unfold imulSite
  split
  · exact ht
  · split <;> exact ht

theorem Exact.of_ham {any : Prop} {n0 : Bool} {s t : St K} (h : s.Exact fl any n0) (e : t.toHam = s.toHam) (hf : t.Floats fl) : t.Exact fl any n0 :=
  ⟨hf, by rw [(congrArg Ham.ef e : t.ef = s.ef)]; exact h.ef, by rw [(congrArg Ham.osf e : t.osf = s.osf)]; exact h.osf,
    by rw [(congrArg Ham.spin e : t.spin = s.spin)]; exact h.spin, by rw [(congrArg Ham.sn e : t.sn = s.sn)]; exact h.flag⟩

/-- The same result, and no rounding is needed afterwards. -/
def ExactR (fl : K → K) (any : Prop) (n0 : Bool) (r r' : Res (St K)) : Prop := r' = r ∧ r.st.Exact fl any n0

theorem ExactR.andThen {any : Prop} {n0 : Bool} {r r' : Res (St K)} (h : ExactR fl any n0 r r') {f f' : St K → Res (St K)}
    (hf : r.st.Exact fl any n0 → ExactR fl any n0 (f r.st) (f' r.st)) : ExactR fl any n0 (r.andThen f) (r'.andThen f') := by
  obtain ⟨rfl, h⟩ := h
  unfold Res.andThen
  cases hr : r'.err with
  | none => exact hf h
  | some e => exact ⟨rfl, h⟩

variable {any : Prop} {n0 : Bool}

theorem setDC_same (hb : IsBinary fl) (new : Bool) (h : s.Exact fl any n0) : ExactR fl any n0 (s.setDC new) (s.setDCFl fl new) := by
  have h' : ({ s with dc := some new } : St K).Exact fl any n0 := ⟨h.floats, h.ef, h.osf, h.spin, h.flag⟩
  have step : ∀ {r r' : Res (St K)}, ExactR fl any n0 r r' →
      ExactR fl any n0 (r.andThen (if new then ensureDC else ensureNoDC)) (r'.andThen (if new then ensureDC else ensureNoDC)) := by
    intro r r' hr
    refine hr.andThen fun g => ⟨rfl, ?_⟩
    cases new with
    | true => exact exact_ensureDC g
    | false => exact exact_ensureNoDC g
  have scale : ∀ q : K, Dyadic q → ExactR fl any n0 (({ s with dc := some new } : St K).scaleExch fun _ _ => .ok q)
      (({ s with dc := some new } : St K).scaleExchFl fun _ _ => .ok fun x => fl (x * q)) := fun q hq => by
    have := scaleExch_same (fl := fl) (c := fun _ _ => .ok q) (c' := fun _ _ => .ok fun x => fl (x * q))
      (fun _ _ _ => same_mul hb hq) h'.floats
    exact ⟨this.1, h'.of_ham (scaleExch_frame _ _) this.2⟩
  unfold setDC setDCFl
  simp only
  by_cases a1 : s.dc = some true ∧ new = false
  · rw [if_pos a1, if_pos a1]
    exact step (scale 2 .two)
  · rw [if_neg a1, if_neg a1]
    by_cases a2 : s.dc = some false ∧ new = true
    · rw [if_pos a2, if_pos a2]
      exact step (scale (1 / 2) .half)
    · rw [if_neg a2, if_neg a2]
      exact step ⟨rfl, h'⟩

theorem same_spin (hb : IsBinary fl) (hs : ∀ a x, s.spin a = some x → Dyadic x) {t : St K} (e : t.toHam = s.toHam) (a b : Atom) :
    Same fl (t.spinProd a b) ((t.spinProd a b).map fun p x => fl (x * fl p)) ∧
      Same fl ((t.spinProd a b).map fun x => x⁻¹) ((t.spinProd a b).map fun p x => fl (x / fl p)) := by
  rw [spinProd_congr e]
  unfold spinProd spinOf
  cases ha : s.spin a with
  | none => exact ⟨rfl, rfl⟩
  | some x =>
    cases hb' : s.spin b with
    | none => exact ⟨rfl, rfl⟩
    | some y =>
      have hd : Dyadic (x * y) := (hs a x ha).mul (hs b y hb')
      refine ⟨fun z hz => ?_, fun z hz => ?_⟩
      · simp only [hb.dyadic hd]
        exact same_mul hb hd z hz
      · simp only [hb.dyadic hd, div_eq_mul_inv]
        exact same_mul hb hd.inv z hz

theorem setSN_same (hb : IsBinary fl) (new : Bool) (h : s.Exact fl any n0) (hn : any ∨ new = n0) :
    ExactR fl any n0 (s.setSN new) (s.setSNFl fl new) := by
  have fin : ∀ {r r' : Res (St K)}, ExactR fl any n0 r r' →
      ExactR fl any n0 (r.andThen fun t => .ok { t with sn := some new }) (r'.andThen fun t => .ok { t with sn := some new }) := by
    intro r r' hr
    exact hr.andThen fun g => ⟨rfl, g.floats, g.ef, g.osf, g.spin, hn.imp_right fun e => congrArg some e⟩
  have two : ∀ (ce : Bond → St K → Except PyErr K) (ce' : Bond → St K → Except PyErr (K → K))
      (co : Atom → St K → Except PyErr K) (co' : Atom → St K → Except PyErr (K → K)),
      (∀ b (t : St K), t.toHam = s.toHam → Same fl (ce b t) (ce' b t)) → (∀ a (t : St K), t.toHam = s.toHam → Same fl (co a t) (co' a t)) →
      ExactR fl any n0 ((s.scaleExch ce).andThen (scaleSite co)) ((s.scaleExchFl ce').andThen (scaleSiteFl co')) := by
    intro ce ce' co co' hce hco
    have h1 := scaleExch_same hce h.floats
    have hf := scaleExch_frame ce s
    refine ExactR.andThen ⟨h1.1, h.of_ham hf h1.2⟩ fun g => ?_
    have h2 := scaleSite_same (fun a t e => hco a t (e.trans hf)) g.floats
    exact ⟨h2.1, g.of_ham (scaleSite_frame _ _) h2.2⟩
  have hsp : s.sn ≠ some new → ∀ a x, s.spin a = some x → Dyadic x := by
    intro h1
    rcases hn with hn | hn
    · exact h.spin hn
    · rcases h.flag with g | g
      · exact h.spin g
      · exact absurd (g.trans (congrArg some hn.symm)) h1
  unfold setSN setSNFl
  simp only
  by_cases a1 : s.sn = some true ∧ new = false
  · rw [if_pos a1, if_pos a1]
    have hd := hsp (by rw [a1.1, a1.2]; simp)
    exact fin (two _ _ _ _ (fun b t e => (same_spin hb hd e b.1 b.2.1).2) fun a t e => (same_spin hb hd e a a).2)
  · rw [if_neg a1, if_neg a1]
    by_cases a2 : s.sn = some false ∧ new = true
    · rw [if_pos a2, if_pos a2]
      have hd := hsp (by rw [a2.1, a2.2]; simp)
      exact fin (two _ _ _ _ (fun b t e => (same_spin hb hd e b.1 b.2.1).1) fun a t e => (same_spin hb hd e a a).1)
    · rw [if_neg a2, if_neg a2]
      exact fin ⟨rfl, h⟩

theorem same_ratio (hb : IsBinary fl) {old new : K} (h1 : Dyadic old) (h2 : Dyadic new) :
    Same fl (ratio old new) ((ratio old new).map fun q x => fl (x * fl q)) := by
  unfold ratio
  split_ifs
  · rfl
  · intro y hy
    simp only [hb.dyadic (h1.div h2)]
    exact same_mul hb (h1.div h2) y hy

theorem setEF_same (hb : IsBinary fl) {new : K} (hn : Dyadic new) (h : s.Exact fl any n0) :
    ExactR fl any n0 (s.setEF new) (s.setEFFl fl new) := by
  unfold setEF setEFFl
  simp only
  refine ExactR.andThen ?_ fun g => ⟨rfl, g.floats, fun x hx => by cases hx; exact hn, g.osf, g.spin, g.flag⟩
  cases he : s.ef with
  | none => exact ⟨rfl, h⟩
  | some old =>
    simp only
    by_cases e : old ≠ new
    · rw [if_pos e, if_pos e]
      have := scaleExch_same (fl := fl) (s := s) (fun _ _ _ => same_ratio hb (h.ef _ he) hn) h.floats
      exact ⟨this.1, h.of_ham (scaleExch_frame _ _) this.2⟩
    · rw [if_neg e, if_neg e]
      exact ⟨rfl, h⟩

theorem setOF_same (hb : IsBinary fl) {new : K} (hn : Dyadic new) (h : s.Exact fl any n0) :
    ExactR fl any n0 (s.setOF new) (s.setOFFl fl new) := by
  unfold setOF setOFFl
  simp only
  refine ExactR.andThen ?_ fun g => ⟨rfl, g.floats, g.ef, fun x hx => by cases hx; exact hn, g.spin, g.flag⟩
  cases he : s.osf with
  | none => exact ⟨rfl, h⟩
  | some old =>
    simp only
    by_cases e : old ≠ new
    · rw [if_pos e, if_pos e]
      have := scaleSite_same (fl := fl) (s := s) (fun _ _ _ => same_ratio hb (h.osf _ he) hn) h.floats
      exact ⟨this.1, h.of_ham (scaleSite_frame _ _) this.2⟩
    · rw [if_neg e, if_neg e]
      exact ⟨rfl, h⟩

theorem setFour_same (hb : IsBinary fl) (d : Bool) {n : Bool} {e o : K} (hn : any ∨ n = n0) (he : Dyadic e) (ho : Dyadic o)
    (h : s.Exact fl any n0) : ExactR fl any n0 (s.setFour d n e o) (s.setFourFl fl d n e o) :=
  (((setDC_same hb d h).andThen fun g => setSN_same hb n g hn).andThen fun g => setEF_same hb he g).andThen
    fun g => setOF_same hb ho g

theorem setNotation_same (hb : IsBinary fl) (a : NotationArg K)
    (ha : ∀ q, a.Means q → (any ∨ q.2.1 = n0) ∧ Dyadic q.2.2.1 ∧ Dyadic q.2.2.2) (h : s.Exact fl any n0) :
    ExactR fl any n0 (s.setNotation a) (s.setNotationFl fl a) := by
  have four : ∀ d n e o, a.Means (d, n, e, o) → ExactR fl any n0 (s.setFour d n e o) (s.setFourFl fl d n e o) := by
    intro d n e o hm
    obtain ⟨h1, h2, h3⟩ := ha _ hm
    exact setFour_same hb d h1 h2 h3 h
  cases a with
  | other => exact ⟨rfl, h⟩
  | seq l =>
    rcases l with _ | ⟨a, _ | ⟨b, _ | ⟨c, _ | ⟨d, _ | ⟨e, l⟩⟩⟩⟩⟩
    · exact ⟨rfl, h⟩
    · exact ⟨rfl, h⟩
    · exact ⟨rfl, h⟩
    · exact four _ _ _ _ ⟨a, b, by simp, by simp, .inl ⟨rfl, rfl⟩⟩
    · exact four _ _ _ _ ⟨a, b, by simp, by simp, .inr rfl⟩
    · exact ⟨rfl, h⟩
  | str n =>
    unfold setNotation setNotationFl
    simp only
    cases hp : predefined (K := K) n.toLower with
    | none => exact ⟨rfl, h⟩
    | some q =>
      obtain ⟨d, m, e, o⟩ := q
      refine four d m e o ?_
      unfold predefined at hp
      by_cases h1 : n.toLower = "magnopy"
      · rw [if_pos h1] at hp
        exact .inl ⟨h1, (Option.some.inj hp).symm⟩
      rw [if_neg h1] at hp
      by_cases h2 : n.toLower = "tb2j"
      · rw [if_pos h2] at hp
        exact .inr (.inl ⟨h2, (Option.some.inj hp).symm⟩)
      rw [if_neg h2] at hp
      by_cases h3 : n.toLower = "spinw"
      · rw [if_pos h3] at hp
        exact .inr (.inr (.inl ⟨h3, (Option.some.inj hp).symm⟩))
      rw [if_neg h3] at hp
      by_cases h4 : n.toLower = "vampire"
      · rw [if_pos h4] at hp
        exact .inr (.inr (.inr ⟨h4, by rw [← neg_div]; exact (Option.some.inj hp).symm⟩))
      rw [if_neg h4] at hp
      cases hp

theorem step_same (hb : IsBinary fl) (op : Op K) (ho : op.NoRounding any n0) (h : s.Exact fl any n0) :
    ExactR fl any n0 (op.step s) (op.stepFl fl s) := by
  cases op with
  | setDC b => exact setDC_same hb b h
  | setSN b => exact setSN_same hb b h ho
  | setEF x => exact setEF_same hb ho h
  | setOF x => exact setOF_same hb ho h
  | setNotation a => exact setNotation_same hb a ho h
  | _ => exact ho.elim

theorem run_same (hb : IsBinary fl) (ops : List (Op K)) (ho : ∀ o ∈ ops, o.NoRounding any n0) (h : s.Exact fl any n0) :
    runFl fl ops s = runOps ops s ∧ (runOps ops s).Exact fl any n0 := by
  induction ops generalizing s with
  | nil => exact ⟨rfl, h⟩
  | cons o os ih =>
    obtain ⟨h1, h2⟩ := step_same hb o (ho o (by simp)) h
    have := ih (fun o h => ho o (by simp [h])) h2
    refine ⟨?_, this.2⟩
    show runFl fl os (o.stepFl fl s).st = _
    rw [h1]
    exact this.1

end St

/-! ### Energies -/

theorem bilin_error {g : K} {u v : V3 K} {J J' : M3 K} (h : ∀ i j, |J' i j - J i j| ≤ g * |J i j|) :
    |bilin u J' v - bilin u J v| ≤ g * bilin (fun i => |u i|) (J.map abs) fun i => |v i| := by
  unfold bilin
  rw [← Finset.sum_sub_distrib, Finset.mul_sum]
  refine (Finset.abs_sum_le_sum_abs _ _).trans (Finset.sum_le_sum fun i _ => ?_)
  rw [← Finset.sum_sub_distrib, Finset.mul_sum]
  refine (Finset.abs_sum_le_sum_abs _ _).trans (Finset.sum_le_sum fun j _ => ?_)
  rw [show u i * J' i j * v j - u i * J i j * v j = u i * (J' i j - J i j) * v j by ring, abs_mul, abs_mul, Matrix.map_apply,
    show g * (|u i| * |J i j| * |v j|) = |u i| * (g * |J i j|) * |v j| by ring]
  exact mul_le_mul_of_nonneg_right (mul_le_mul_of_nonneg_left (h i j) (abs_nonneg _)) (abs_nonneg _)

theorem sum_error {α : Type*} (l : List α) {f f' h : α → K} {g : K} (hl : ∀ p ∈ l, |f' p - f p| ≤ g * h p) :
    |(l.map f').sum - (l.map f).sum| ≤ g * (l.map h).sum := by
  induction l with
  | nil => simp
  | cons p l ih =>
    simp only [List.map_cons, List.sum_cons]
    have h1 := hl p (by simp)
    have h2 := ih fun q hq => hl q (by simp [hq])
    rw [show f' p + (l.map f').sum - (f p + (l.map f).sum) = (f' p - f p) + ((l.map f').sum - (l.map f).sum) by ring, mul_add]
    exact (abs_add_le _ _).trans (add_le_add h1 h2)

variable {Γ : Type*} [AddCommGroup Γ] [Fintype Γ]

theorem St.Near.exch_error {u : K} {we wo : ℕ} {s t : St K} (hs : s.Near u we wo t) (h0 : 0 ≤ u) (h1 : u < 1) (hn : we * u < 1)
    (c : Config K Γ) (n : Bool) (spin : Atom → K) (e : K) :
    |e * c.bonds (weight n spin) t.exchangeItems - e * c.bonds (weight n spin) s.exchangeItems| ≤
      gamma u we * s.exchSize c n spin e := by
  have he : t.exch = s.exch := congrArg Ham.exch hs.ham
  rw [← mul_sub, abs_mul, St.exchSize, mul_left_comm]
  refine mul_le_mul_of_nonneg_left ?_ (abs_nonneg e)
  unfold Config.bonds St.exchangeItems
  rw [he, List.map_map, List.map_map, List.map_map, List.map_map]
  refine sum_error _ fun p hp => ?_
  have hg := get?_of_mem hs.keys.exch hp
  obtain ⟨y, hy1, hy2⟩ := hs.valE p.1 (s.cell p.2) (by rw [St.valE, hg]; rfl)
  rw [St.valE, he, hg, Option.map_some, Option.some.injEq] at hy1
  subst hy1
  simp only [Function.comp]
  rw [← mul_sub, abs_mul, abs_mul, mul_left_comm]
  refine mul_le_mul_of_nonneg_left ?_ (by positivity)
  unfold Config.bond
  rw [← Finset.sum_sub_distrib, Finset.mul_sum]
  refine (Finset.abs_sum_le_sum_abs _ _).trans (Finset.sum_le_sum fun m _ => ?_)
  exact bilin_error fun i j => (hy2 i j).error h0 h1 hn

theorem St.Near.site_error {u : K} {we wo : ℕ} {s t : St K} (hs : s.Near u we wo t) (h0 : 0 ≤ u) (h1 : u < 1) (hn : wo * u < 1)
    (c : Config K Γ) (n : Bool) (spin : Atom → K) (o : K) :
    |o * c.sites (weight n spin) t.onSiteItems - o * c.sites (weight n spin) s.onSiteItems| ≤
      gamma u wo * s.siteSize c n spin o := by
  have he : t.onSite = s.onSite := congrArg Ham.onSite hs.ham
  rw [← mul_sub, abs_mul, St.siteSize, mul_left_comm]
  refine mul_le_mul_of_nonneg_left ?_ (abs_nonneg o)
  unfold Config.sites St.onSiteItems
  rw [he, List.map_map, List.map_map, List.map_map, List.map_map]
  refine sum_error _ fun p hp => ?_
  have hg := get?_of_mem hs.keys.site hp
  obtain ⟨y, hy1, hy2⟩ := hs.valO p.1 (s.cell p.2) (by rw [St.valO, hg]; rfl)
  rw [St.valO, he, hg, Option.map_some, Option.some.injEq] at hy1
  subst hy1
  simp only [Function.comp]
  rw [← mul_sub, abs_mul, abs_mul, mul_left_comm]
  refine mul_le_mul_of_nonneg_left ?_ (by positivity)
  unfold Config.site
  rw [← Finset.sum_sub_distrib, Finset.mul_sum]
  refine (Finset.abs_sum_le_sum_abs _ _).trans (Finset.sum_le_sum fun m _ => ?_)
  exact bilin_error fun i j => (hy2 i j).error h0 h1 hn

/-! ### Rounding of binary numbers -/

theorem binaryPos_close (p : ℕ) {x : ℚ} (hx : 0 < x) : |binaryPos p x - x| ≤ 2 ^ (-p : ℤ) * x := by
  have h2 : (2 : ℚ) ≠ 0 := two_ne_zero
  set e := Int.log 2 x with he
  have hle : (2 : ℚ) ^ e ≤ x := by
    have := Int.zpow_log_le_self (b := 2) (by norm_num) hx
    simpa using this
  have hpos : (0 : ℚ) < 2 ^ (e - p + 1 : ℤ) := zpow_pos (by norm_num) _
  have hxe : x = x * 2 ^ (p - 1 - e : ℤ) * 2 ^ (e - p + 1 : ℤ) := by
    rw [mul_assoc, ← zpow_add₀ h2, show (p - 1 - e + (e - p + 1) : ℤ) = 0 by ring, zpow_zero, mul_one]
  have hb : binaryPos p x - x = (round (x * 2 ^ (p - 1 - e : ℤ)) - x * 2 ^ (p - 1 - e : ℤ)) * 2 ^ (e - p + 1 : ℤ) := by
    rw [binaryPos, ← he, sub_mul, ← hxe]
  rw [hb, abs_mul, abs_of_pos hpos, abs_sub_comm]
  have h3 := mul_le_mul_of_nonneg_right (abs_sub_round (x * 2 ^ (p - 1 - e : ℤ))) hpos.le
  refine h3.trans ?_
  rw [show (1 / 2 : ℚ) = 2 ^ (-1 : ℤ) by norm_num, ← zpow_add₀ h2, show (-1 + (e - p + 1) : ℤ) = -p + e by ring, zpow_add₀ h2]
  exact mul_le_mul_of_nonneg_left hle (zpow_pos (by norm_num) _).le

theorem binary_rounding {p : ℕ} (hp : 0 < p) : IsRounding (binary p) (2 ^ (-p : ℤ)) := by
  refine ⟨(zpow_pos (by norm_num) _).le, ?_, fun x => ?_⟩
  · rw [zpow_neg, zpow_natCast]
    exact inv_lt_one_of_one_lt₀ (one_lt_pow₀ (by norm_num) hp.ne')
  · unfold binary
    split_ifs with h1 h2
    · simp [h1]
    · have := binaryPos_close p (x := -x) (by linarith)
      rw [abs_of_neg h2]
      rwa [show -binaryPos p (-x) - x = -(binaryPos p (-x) - -x) by ring, abs_neg]
    · have hx : 0 < x := lt_of_le_of_ne (not_lt.1 h2) (Ne.symm h1)
      rw [abs_of_pos hx]
      exact binaryPos_close p hx

theorem log_two {x : ℚ} (hx : 0 < x) : Int.log 2 (x * 2) = Int.log 2 x + 1 := by
  have h1 := Int.zpow_log_le_self (b := 2) (by norm_num) hx
  have h2 := Int.lt_zpow_succ_log_self (b := 2) (by norm_num) x
  have hx2 : 0 < x * 2 := by linarith
  push_cast at h1 h2
  apply le_antisymm
  · rw [← Int.lt_add_one_iff, ← Int.lt_zpow_iff_log_lt (by norm_num) hx2]
    push_cast
    rw [zpow_add₀ two_ne_zero, zpow_one]
    linarith
  · rw [← Int.zpow_le_iff_le_log (by norm_num) hx2]
    push_cast
    rw [zpow_add₀ two_ne_zero, zpow_one]
    linarith

theorem binaryPos_two (p : ℕ) {x : ℚ} (hx : 0 < x) : binaryPos p (x * 2) = binaryPos p x * 2 := by
  have h2 : (2 : ℚ) ≠ 0 := two_ne_zero
  unfold binaryPos
  rw [log_two hx]
  have e1 : x * 2 * 2 ^ (p - 1 - (Int.log 2 x + 1) : ℤ) = x * 2 ^ (p - 1 - Int.log 2 x : ℤ) := by
    rw [mul_assoc, ← zpow_one_add₀ h2]
    congr 2
    ring
  have e2 : (2 : ℚ) ^ (Int.log 2 x + 1 - p + 1 : ℤ) = 2 ^ (Int.log 2 x - p + 1 : ℤ) * 2 := by
    rw [← zpow_add_one₀ h2]
    congr 1
    ring
  rw [e1, e2, mul_assoc]

theorem binary_binary {p : ℕ} (hp : 0 < p) : IsBinary (binary p) := by
  refine ⟨?_, fun x => ?_, fun x => ?_⟩
  · have : Int.log 2 (1 : ℚ) = 0 := Int.log_one_right 2
    obtain ⟨q, rfl⟩ := Nat.exists_eq_succ_of_ne_zero hp.ne'
    unfold binary binaryPos
    rw [if_neg one_ne_zero, if_neg (by norm_num), this, one_mul]
    have : ((2 : ℚ) ^ ((q.succ : ℕ) - 1 - 0 : ℤ)) = ((2 ^ q : ℕ) : ℤ) := by
      push_cast
      rw [show ((q : ℤ) + 1 - 1 - 0) = q by ring, zpow_natCast]
    rw [this, round_intCast]
    push_cast
    rw [← zpow_natCast, ← zpow_add₀ two_ne_zero]
    rw [show ((q : ℤ) + (0 - (q + 1) + 1)) = 0 by ring, zpow_zero]
  · unfold binary
    by_cases h0 : x = 0
    · simp [h0]
    rcases lt_or_gt_of_ne h0 with h | h
    · rw [if_neg (by simpa using h0), if_neg (by linarith), if_neg h0, if_pos h, neg_neg]
    · rw [if_neg (by simpa using h0), if_pos (by linarith), if_neg h0, if_neg (by linarith), neg_neg]
  · unfold binary
    by_cases h0 : x = 0
    · simp [h0]
    have h0' : x * 2 ≠ 0 := mul_ne_zero h0 two_ne_zero
    rcases lt_or_gt_of_ne h0 with h | h
    · rw [if_neg h0', if_pos (by linarith), if_neg h0, if_pos h, ← neg_mul, binaryPos_two p (by linarith), neg_mul]
    · rw [if_neg h0', if_neg (by linarith), if_neg h0, if_neg (by linarith), binaryPos_two p h]

end Magnopy
