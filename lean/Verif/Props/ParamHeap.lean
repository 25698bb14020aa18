import Verif.Spec.ParamHeap
import Mathlib.Tactic.Ring
import Mathlib.Tactic.NormNum
import Mathlib.Tactic.FinCases
import Mathlib.Data.Rat.Floor

/-!
# Property C93: parameters do not share their matrices
-/

set_option autoImplicit false
set_option linter.unusedSectionVars false

namespace Magnopy
namespace ParamHeap

open Param

variable {K : Type*} [Field K] [LinearOrder K] [FloorRing K]

/-- Every parameter has an array of its own. -/
structure World.Inv (w : World K) : Prop where
  lt : ∀ p, p < w.params → w.ref p < w.arrays
  inj : ∀ p q, p < w.params → q < w.params → w.ref p = w.ref q → p = q

theorem inv_empty : (empty : World K).Inv := ⟨fun _ h => absurd h (Nat.not_lt_zero _), fun _ _ h => absurd h (Nat.not_lt_zero _)⟩

theorem inv_alloc {w : World K} (h : w.Inv) (m : M3 K) : (w.alloc m).Inv :=
  ⟨fun p hp => Nat.lt_succ_of_lt (h.lt p hp), h.inj⟩

theorem inv_write {w : World K} (h : w.Inv) (r : ℕ) (i j : Fin 3) (v : K) : (w.write r i j v).Inv := ⟨h.lt, h.inj⟩

/-- Invariant and a possible object under construction. -/
theorem inv_bind {w : World K} (h : w.Inv) (p : ℕ) (m : M3 K) : (w.bind p m).Inv := by
  refine ⟨fun q hq => ?_, fun q q' hq hq' e => ?_⟩
  · show (if q = p then w.arrays else w.ref q) < w.arrays + 1
    split
    · exact Nat.lt_succ_self _
    · exact Nat.lt_succ_of_lt (h.lt q hq)
  · change (if q = p then w.arrays else w.ref q) = (if q' = p then w.arrays else w.ref q') at e
    have h1 := h.lt q hq
    have h2 := h.lt q' hq'
    split at e <;> split at e
    · simp_all
    · omega
    · omega
    · exact h.inj q q' hq hq' e

theorem value_bind {w : World K} (p : ℕ) (m : M3 K) : (w.bind p m).value p = m := by simp [World.value, World.bind]

/-- Binding a new array to `p` does not change the others. -/
theorem value_bind_ne {w : World K} (h : w.Inv) {p q : ℕ} (hq : q < w.params) (hne : q ≠ p) (m : M3 K) :
    (w.bind p m).value q = w.value q := by
  have := h.lt q hq
  simp only [World.value, World.bind, if_neg hne]
  rw [if_neg (by omega)]

theorem value_alloc {w : World K} (h : w.Inv) {q : ℕ} (hq : q < w.params) (m : M3 K) : (w.alloc m).value q = w.value q := by
  have := h.lt q hq
  simp only [World.value, World.alloc]
  rw [if_neg (by omega)]

/-- The worlds in which an object with the identity `p = w.params` is under construction. -/
structure Building (w u : World K) : Prop where
  inv : u.Inv
  params : u.params = w.params
  arrays : w.arrays ≤ u.arrays
  ref : ∀ q, q < w.params → u.ref q = w.ref q
  own : w.arrays ≤ u.ref w.params ∧ u.ref w.params < u.arrays
  cell : ∀ r, r < w.arrays → u.cell r = w.cell r

theorem building_bind {w u : World K} (h : u = w ∧ w.Inv ∨ Building w u) (m : M3 K) : Building w (u.bind w.params m) := by
  have hinv : u.Inv := by rcases h with ⟨rfl, h⟩ | h; exacts [h, h.inv]
  have hp : u.params = w.params := by rcases h with ⟨rfl, h⟩ | h; exacts [rfl, h.params]
  have ha : w.arrays ≤ u.arrays := by rcases h with ⟨rfl, h⟩ | h; exacts [le_refl _, h.arrays]
  have hr : ∀ q, q < w.params → u.ref q = w.ref q := by rcases h with ⟨rfl, h⟩ | h; exacts [fun _ _ => rfl, h.ref]
  have hc : ∀ r, r < w.arrays → u.cell r = w.cell r := by rcases h with ⟨rfl, h⟩ | h; exacts [fun _ _ => rfl, h.cell]
  refine ⟨inv_bind hinv _ _, hp, Nat.le_succ_of_le ha, fun q hq => ?_, ?_, fun r hr => ?_⟩
  · show (if q = w.params then u.arrays else u.ref q) = _
    rw [if_neg (by omega), hr q hq]
  · show _ ≤ (if w.params = w.params then u.arrays else _) ∧ (if w.params = w.params then u.arrays else _) < u.arrays + 1
    rw [if_pos rfl]
    exact ⟨ha, Nat.lt_succ_self _⟩
  · show (if r = u.arrays then m else u.cell r) = _
    rw [if_neg (by omega), hc r hr]

/-- The result of building corresponds to the result of a computation with plain matrices. -/
structure Built (w : World K) (r : Res (World K)) (m : Res (M3 K)) : Prop where
  build : Building w r.st
  err : r.err = m.err
  value : r.st.value w.params = m.st

theorem Building.value {w u : World K} (h : Building w u) (hw : w.Inv) {q : ℕ} (hq : q < w.params) : u.value q = w.value q := by
  simp only [World.value]
  rw [h.ref q hq, h.cell _ (hw.lt q hq)]

/-- What a source is as a plain value in `w`. -/
def World.plainSrc (w : World K) : Src K → ArrayLike K
  | .written a => a
  | .array r => rowsOf (w.cell r)
  | .param p => rowsOf (w.value p)

theorem toM3_rowsOf (m : M3 K) : (rowsOf m).toM3 = .ok m := by
  simp only [rowsOf, ArrayLike.toM3]
  congr 1
  ext i j
  fin_cases i <;> fin_cases j <;> rfl

theorem Building.read {w u : World K} (h : Building w u) (hw : w.Inv) {a : Src K} (ha : w.has (some a) = true) :
    u.read a = (w.plainSrc a).toM3 := by
  cases a with
  | written a => rfl
  | array r =>
    have hr : r < w.arrays := by simpa [World.has] using ha
    have := h.arrays
    simp only [World.read, World.plainSrc, toM3_rowsOf, h.cell r hr]
    rw [if_pos (by omega)]
  | param p =>
    have hp : p < w.params := by simpa [World.has] using ha
    simp only [World.read, World.plainSrc, toM3_rowsOf, h.value hw hp, h.params, if_pos hp]

theorem Built.andThen {w : World K} {r : Res (World K)} {m : Res (M3 K)} (h : Built w r m) {f : World K → Res (World K)}
    {g : M3 K → Res (M3 K)} (hfg : ∀ u, Building w u → Built w (f u) (g (u.value w.params))) : Built w (r.andThen f) (m.andThen g) := by
  unfold Res.andThen
  rw [← h.err]
  cases r.err with
  | none =>
    simp only
    rw [← h.value]
    exact hfg _ h.build
  | some e => exact ⟨h.build, by rw [← h.err], h.value⟩

theorem Built.ifGiven {w : World K} {α β : Type*} {c : α → β} (o : Option α) {f : World K → α → Res (World K)}
    {g : M3 K → β → Res (M3 K)} (hfg : ∀ u a, o = some a → Building w u → Built w (f u a) (g (u.value w.params) (c a))) (u : World K)
    (hu : Building w u) : Built w (Param.ifGiven o f u) (Param.ifGiven (o.map c) g (u.value w.params)) := by
  cases o with
  | none => exact ⟨hu, rfl, rfl⟩
  | some a => exact hfg u a rfl hu

theorem built_create {w : World K} (hw : w.Inv) {matrix aniso : Option (Src K)} (iso : Option K) (dmi : Option (ArrayLike K))
    (hm : w.has matrix = true) (ha : w.has aniso = true) :
    Built w ((((Param.ifGiven matrix (fun u a => u.assignMatrix w.params a) (w.bind w.params 0)).andThen
      (Param.ifGiven iso fun u v => u.assignIso w.params v)).andThen
      (Param.ifGiven dmi fun u d => u.assignDmi w.params d)).andThen
      (Param.ifGiven aniso fun u a => u.assignAniso w.params a)) (Param.init (matrix.map w.plainSrc) iso (aniso.map w.plainSrc) dmi) := by
  have h0 : Building w (w.bind w.params 0) := building_bind (.inl ⟨rfl, hw⟩) 0
  have hv0 : (w.bind w.params 0).value w.params = 0 := value_bind _ _
  refine Built.andThen (Built.andThen (Built.andThen ?_ fun u hu => ?_) fun u hu => ?_) fun u hu => ?_
  · have := Built.ifGiven (c := w.plainSrc) matrix (f := fun u a => u.assignMatrix w.params a) (g := Param.assignMatrix)
      (fun u a e hu => by
        rw [World.assignMatrix, Param.assignMatrix, hu.read hw (e ▸ hm)]
        cases (w.plainSrc a).toM3 with
        | ok n => exact ⟨building_bind (.inr hu) n, rfl, value_bind _ _⟩
        | error e => exact ⟨hu, rfl, rfl⟩) _ h0
    rwa [hv0] at this
  · have := Built.ifGiven (c := id) iso (f := fun u v => u.assignIso w.params v) (g := fun m v => .ok (Param.setIso m v))
      (fun u v _ hu => ⟨building_bind (.inr hu) _, rfl, value_bind _ _⟩) u hu
    rwa [Option.map_id] at this
  · have := Built.ifGiven (c := id) dmi (f := fun u v => u.assignDmi w.params v) (g := Param.assignDmi)
      (fun u v _ hu => by
        rw [World.assignDmi, Param.assignDmi, id]
        cases v.toV3 with
        | ok n => exact ⟨building_bind (.inr hu) _, rfl, value_bind _ _⟩
        | error e => exact ⟨hu, rfl, rfl⟩) u hu
    rwa [Option.map_id] at this
  · refine Built.ifGiven aniso (fun u a e hu => ?_) u hu
    rw [World.assignAniso, Param.assignAniso, hu.read hw (e ▸ ha)]
    cases (w.plainSrc a).toM3 with
    | ok n => exact ⟨building_bind (.inr hu) _, rfl, value_bind _ _⟩
    | error e => exact ⟨hu, rfl, rfl⟩

/-- A finished object. -/
theorem inv_finish {w u : World K} (hw : w.Inv) (h : Building w u) : ({ u with params := u.params + 1 } : World K).Inv := by
  have hown := h.own
  refine ⟨fun p hp => ?_, fun p q hp hq e => ?_⟩
  · change p < u.params + 1 at hp
    rw [h.params] at hp
    rcases Nat.lt_succ_iff_lt_or_eq.1 hp with hp | rfl
    · exact h.inv.lt p (h.params ▸ hp)
    · exact hown.2
  · change p < u.params + 1 at hp
    change q < u.params + 1 at hq
    change u.ref p = u.ref q at e
    rw [h.params] at hp hq
    rcases Nat.lt_succ_iff_lt_or_eq.1 hp with hp | rfl <;> rcases Nat.lt_succ_iff_lt_or_eq.1 hq with hq | rfl
    · exact h.inv.inj p q (h.params ▸ hp) (h.params ▸ hq) e
    · have := hw.lt p hp
      rw [h.ref p hp] at e
      omega
    · have := hw.lt q hq
      rw [h.ref q hq] at e
      omega
    · rfl

/-- What one statement does to the world, apart from values. -/
structure Stepped (w u : World K) : Prop where
  inv : u.Inv
  params : w.params ≤ u.params
  arrays : w.arrays ≤ u.arrays
  fresh : ∀ q, q < u.params → u.ref q = w.ref q ∧ q < w.params ∨ w.arrays ≤ u.ref q

theorem Stepped.refl {w : World K} (h : w.Inv) : Stepped w w := ⟨h, le_refl _, le_refl _, fun _ hq => .inl ⟨rfl, hq⟩⟩

theorem stepped_bind {w : World K} (h : w.Inv) (p : ℕ) (m : M3 K) : Stepped w (w.bind p m) := by
  refine ⟨inv_bind h p m, le_refl _, Nat.le_succ _, fun q hq => ?_⟩
  show (if q = p then w.arrays else w.ref q) = _ ∧ _ ∨ _ ≤ if q = p then w.arrays else w.ref q
  split
  · exact .inr (le_refl _)
  · exact .inl ⟨rfl, hq⟩

theorem stepped_keep {w : World K} (hw : w.Inv) {r : Res (World K)} (h : Building w r.st) : Stepped w (World.keep r).st := by
  unfold World.keep
  cases r.err with
  | none =>
    refine ⟨inv_finish hw h, by show _ ≤ r.st.params + 1; rw [h.params]; exact Nat.le_succ _, h.arrays, fun q hq => ?_⟩
    change q < r.st.params + 1 at hq
    show r.st.ref q = _ ∧ _ ∨ _ ≤ r.st.ref q
    rw [h.params] at hq
    rcases Nat.lt_succ_iff_lt_or_eq.1 hq with hq | rfl
    · exact .inl ⟨h.ref q hq, hq⟩
    · exact .inr h.own.1
  | some e =>
    refine ⟨h.inv, h.params.ge, h.arrays, fun q hq => .inl ⟨h.ref q (h.params ▸ hq), h.params ▸ hq⟩⟩

theorem make_eq (w : World K) (m : M3 K) : w.make m = World.keep (.ok (w.bind w.params m)) := rfl

theorem stepped_make {w : World K} (h : w.Inv) (m : M3 K) : Stepped w (w.make m).st := by
  rw [make_eq]
  exact stepped_keep h (r := .ok (w.bind w.params m)) (building_bind (.inl ⟨rfl, h⟩) m)

theorem stepped_step {w : World K} (h : w.Inv) (op : Op K) : Stepped w (step w op).st := by
  have hp : ∀ p (f : Res (World K)), Stepped w f.st → Stepped w (w.withParam p f).st := fun p f hf => by
    unfold World.withParam
    split
    · exact hf
    · exact .refl h
  cases op with
  | newArray m => exact ⟨inv_alloc h m, le_refl _, Nat.le_succ _, fun q hq => .inl ⟨rfl, hq⟩⟩
  | writeArray r i j v =>
    show Stepped w (if r < w.arrays then Res.ok (w.write r i j v) else .raise w .nameError).st
    split
    · exact ⟨inv_write h r i j v, le_refl _, le_refl _, fun q hq => .inl ⟨rfl, hq⟩⟩
    · exact .refl h
  | readPart p part => exact hp _ _ ⟨inv_alloc h _, le_refl _, Nat.le_succ _, fun q hq => .inl ⟨rfl, hq⟩⟩
  | new m i a d =>
    show Stepped w (if w.has m && w.has a then w.create m i a d else .raise w .nameError).st
    split
    · rename_i hh
      rw [Bool.and_eq_true] at hh
      exact stepped_keep h (built_create h i d hh.1 hh.2).build
    · exact .refl h
  | setMatrix p a =>
    refine hp _ _ ?_
    unfold World.assignMatrix
    cases w.read a with
    | ok m => exact stepped_bind h _ _
    | error e => exact .refl h
  | setIso p v => exact hp _ _ (stepped_bind h _ _)
  | setAniso p a =>
    refine hp _ _ ?_
    unfold World.assignAniso
    cases w.read a with
    | ok m => exact stepped_bind h _ _
    | error e => exact .refl h
  | setDmi p a =>
    refine hp _ _ ?_
    unfold World.assignDmi
    cases a.toV3 with
    | ok m => exact stepped_bind h _ _
    | error e => exact .refl h
  | setEntry p i j v => exact hp _ _ ⟨inv_write h _ i j v, le_refl _, le_refl _, fun q hq => .inl ⟨rfl, hq⟩⟩
  | unary f p => exact hp _ _ (stepped_make h _)
  | binary f p q => exact hp _ _ (hp _ _ (stepped_make h _))
  | scalar f p v => exact hp _ _ (stepped_make h _)

theorem stepped_run {w : World K} (h : w.Inv) (ops : List (Op K)) : Stepped w (run w ops) := by
  induction ops generalizing w with
  | nil => exact .refl h
  | cons op ops ih =>
    have h1 := stepped_step h op
    have h2 := ih h1.inv
    show Stepped w (run (step w op).st ops)
    refine ⟨h2.inv, h1.params.trans h2.params, h1.arrays.trans h2.arrays, fun q hq => ?_⟩
    rcases h2.fresh q hq with ⟨e, hq'⟩ | e
    · rcases h1.fresh q hq' with ⟨e', hq''⟩ | e'
      · exact .inl ⟨e.trans e', hq''⟩
      · exact .inr (e ▸ e')
    · exact .inr (h1.arrays.trans e)

theorem inv_run (ops : List (Op K)) : (run empty ops : World K).Inv := (stepped_run inv_empty ops).inv

/-- **C93 (separate).** After any program, `p.matrix is q.matrix` only if `p is q`. -/
theorem C93_separate (ops : List (Op K)) (p q : ℕ) (hp : p < (run empty ops : World K).params) (hq : q < (run empty ops : World K).params)
    (h : (run empty ops : World K).ref p = (run empty ops).ref q) : p = q := (inv_run ops).inj p q hp hq h

theorem value_frame {w : World K} (h : w.Inv) (op : Op K) {q : ℕ} (hq : q < w.params) (hn : ¬ Touches w q op) :
    (step w op).st.value q = w.value q := by
  have hpar : ∀ p (f : Res (World K)), f.st.value q = w.value q → (w.withParam p f).st.value q = w.value q := fun p f hf => by
    unfold World.withParam
    split
    · exact hf
    · rfl
  have hmake : ∀ m, (w.make m).st.value q = w.value q := fun m => value_bind_ne h hq (by omega) m
  cases op with
  | newArray m => exact value_alloc h hq m
  | writeArray r i j v =>
    show (if r < w.arrays then Res.ok (w.write r i j v) else .raise w .nameError).st.value q = _
    split
    · show (if w.ref q = r then _ else _) = _
      rw [if_neg fun e => hn (show r = w.ref q from e.symm)]
      rfl
    · rfl
  | readPart p part => exact hpar _ _ (value_alloc h hq _)
  | new m i a d =>
    show (if w.has m && w.has a then w.create m i a d else .raise w .nameError).st.value q = _
    split
    · rename_i hh
      rw [Bool.and_eq_true] at hh
      have hb := (built_create h i d hh.1 hh.2).build
      refine Eq.trans ?_ (hb.value h hq)
      unfold World.create World.keep
      split <;> rfl
    · rfl
  | setMatrix p a =>
    refine hpar _ _ ?_
    unfold World.assignMatrix
    cases w.read a with
    | ok m => exact value_bind_ne h hq (fun e => hn e.symm) m
    | error e => rfl
  | setIso p v => exact hpar _ _ (value_bind_ne h hq (fun e => hn e.symm) _)
  | setAniso p a =>
    refine hpar _ _ ?_
    unfold World.assignAniso
    cases w.read a with
    | ok m => exact value_bind_ne h hq (fun e => hn e.symm) _
    | error e => rfl
  | setDmi p a =>
    refine hpar _ _ ?_
    unfold World.assignDmi
    cases a.toV3 with
    | ok m => exact value_bind_ne h hq (fun e => hn e.symm) _
    | error e => rfl
  | setEntry p i j v =>
    show (if p < w.params then Res.ok (w.write (w.ref p) i j v) else .raise w .nameError).st.value q = _
    split
    · rename_i hp
      show (if w.ref q = w.ref p then _ else _) = _
      rw [if_neg fun e => hn (show p = q from (h.inj q p hq hp e).symm)]
      rfl
    · rfl
  | unary f p => exact hpar _ _ (hmake _)
  | binary f p q => exact hpar _ _ (hpar _ _ (hmake _))
  | scalar f p v => exact hpar _ _ (hmake _)

/-- **C93 (frame).** After any program, a statement changes the matrix of a parameter `q` only if it assigns to an attribute of `q`
itself or writes into the array `q.matrix`; also if the statement raises. -/
theorem C93_frame (ops : List (Op K)) (op : Op K) (q : ℕ) (hq : q < (run empty ops : World K).params)
    (hn : ¬ Touches (run empty ops) q op) :
    (step (run empty ops) op).st.value q = (run empty ops : World K).value q ∧ q < (step (run empty ops : World K) op).st.params :=
  ⟨value_frame (inv_run ops) op hq hn, hq.trans_le (stepped_step (inv_run ops) op).params⟩

theorem ref_step {w : World K} (h : w.Inv) (op : Op K) {q : ℕ} (hq : q < w.params) (hn : ¬ Rebinds q op) :
    (step w op).st.ref q = w.ref q := by
  have hpar : ∀ p (f : Res (World K)), f.st.ref q = w.ref q → (w.withParam p f).st.ref q = w.ref q := fun p f hf => by
    unfold World.withParam
    split
    · exact hf
    · rfl
  have hbind : ∀ p m, q ≠ p → (w.bind p m).ref q = w.ref q := fun p m hne => if_neg hne
  have hmake : ∀ m, (w.make m).st.ref q = w.ref q := fun m => hbind _ m (by omega)
  cases op with
  | newArray m => rfl
  | writeArray r i j v =>
    show (if r < w.arrays then Res.ok (w.write r i j v) else .raise w .nameError).st.ref q = _
    split <;> rfl
  | readPart p part => exact hpar _ _ rfl
  | new m i a d =>
    show (if w.has m && w.has a then w.create m i a d else .raise w .nameError).st.ref q = _
    split
    · rename_i hh
      rw [Bool.and_eq_true] at hh
      have hb := (built_create h i d hh.1 hh.2).build
      refine Eq.trans ?_ (hb.ref q hq)
      unfold World.create World.keep
      split <;> rfl
    · rfl
  | setMatrix p a =>
    refine hpar _ _ ?_
    unfold World.assignMatrix
    cases w.read a with
    | ok m => exact hbind _ _ fun e => hn e.symm
    | error e => rfl
  | setIso p v => exact hpar _ _ (hbind _ _ fun e => hn e.symm)
  | setAniso p a =>
    refine hpar _ _ ?_
    unfold World.assignAniso
    cases w.read a with
    | ok m => exact hbind _ _ fun e => hn e.symm
    | error e => rfl
  | setDmi p a =>
    refine hpar _ _ ?_
    unfold World.assignDmi
    cases a.toV3 with
    | ok m => exact hbind _ _ fun e => hn e.symm
    | error e => rfl
  | setEntry p i j v => exact hpar _ _ rfl
  | unary f p => exact hpar _ _ (hmake _)
  | binary f p q => exact hpar _ _ (hpar _ _ (hmake _))
  | scalar f p v => exact hpar _ _ (hmake _)

/-- **C93 (live array).** An array that was taken as `a = p.matrix` stays the matrix of `p` during any statements that do not assign
to `p.matrix`, `p.iso`, `p.aniso` or `p.dmi`; then `a[i][j] = v` sets exactly this component of `p`. -/
theorem C93_live (ops later : List (Op K)) (p : ℕ) (hp : p < (run empty ops : World K).params) (hn : ∀ op ∈ later, ¬ Rebinds p op)
    (i j : Fin 3) (v : K) :
    let r := (run empty ops : World K).ref p
    let w := run (run empty ops : World K) later
    w.cell r = w.value p ∧ (step w (.writeArray r i j v)).err = none ∧
      (step w (.writeArray r i j v)).st.value p = Param.setEntry (w.value p) i j v := by
  have href : ∀ (w : World K), w.Inv → p < w.params → ∀ later : List (Op K), (∀ op ∈ later, ¬ Rebinds p op) → (run w later).ref p = w.ref p := by
    intro w hw hp later hn
    induction later generalizing w with
    | nil => rfl
    | cons op later ih =>
      have h1 := stepped_step hw op
      show (run (step w op).st later).ref p = _
      rw [ih _ h1.inv (hp.trans_le h1.params) fun o ho => hn o (List.mem_cons_of_mem _ ho)]
      exact ref_step hw op hp (hn op List.mem_cons_self)
  intro r w
  have e : w.ref p = r := href _ (inv_run ops) hp later hn
  have hr : r < w.arrays := by
    have hs := stepped_run (inv_run ops) later
    rw [← e]
    exact hs.inv.lt p (hp.trans_le hs.params)
  have hst : step w (.writeArray r i j v) = .ok (w.write r i j v) := if_pos hr
  refine ⟨by rw [World.value, e], by rw [hst]; rfl, ?_⟩
  rw [hst]
  show (if w.ref p = r then Param.setEntry (w.cell r) i j v else _) = _
  rw [if_pos e, World.value, e]

/-- **C93 (detached array).** After a successful assignment to `p.matrix`, `p.iso`, `p.aniso` or `p.dmi`, an array that was taken
before as `a = p.matrix` belongs to no parameter any more, whatever follows: writing into it changes no parameter. -/
theorem C93_detached (ops later : List (Op K)) (p : ℕ) (hp : p < (run empty ops : World K).params) (op : Op K) (ho : Rebinds p op)
    (hok : (step (run empty ops : World K) op).err = none) (i j : Fin 3) (v : K) :
    let r := (run empty ops : World K).ref p
    let w := run (step (run empty ops : World K) op).st later
    ∀ q, q < w.params → (step w (.writeArray r i j v)).st.value q = w.value q := by
  intro r w q hq
  have hw := inv_run (K := K) ops
  have h1 := stepped_step hw op
  have h2 := stepped_run h1.inv later
  refine value_frame h2.inv _ hq fun e => ?_
  change r = w.ref q at e
  have hr : r < (run empty ops : World K).arrays := hw.lt p hp
  -- no parameter has the array after the assignment
  have hnone : ∀ q', q' < (step (run empty ops : World K) op).st.params → (step (run empty ops : World K) op).st.ref q' ≠ r := by
    intro q' hq' e'
    rcases h1.fresh q' hq' with ⟨e1, e2⟩ | e1
    · have hqp : q' = p := hw.inj q' p e2 hp (e1.symm.trans e')
      subst hqp
      have hnew : (step (run empty ops : World K) op).st.ref q' = (run empty ops : World K).arrays := by
        have hbind : ∀ m, ((run empty ops : World K).bind q' m).ref q' = (run empty ops : World K).arrays := fun m => if_pos rfl
        cases op with
        | setMatrix p' a =>
          obtain rfl : p' = q' := ho
          simp only [step, World.withParam, if_pos e2, World.assignMatrix] at hok ⊢
          cases hra : (run empty ops : World K).read a with
          | ok m => exact hbind m
          | error e => rw [hra] at hok; exact absurd hok (by simp [Res.raise])
        | setIso p' x =>
          obtain rfl : p' = q' := ho
          simp only [step, World.withParam, if_pos e2]
          exact hbind _
        | setAniso p' a =>
          obtain rfl : p' = q' := ho
          simp only [step, World.withParam, if_pos e2, World.assignAniso] at hok ⊢
          cases hra : (run empty ops : World K).read a with
          | ok m => exact hbind _
          | error e => rw [hra] at hok; exact absurd hok (by simp [Res.raise])
        | setDmi p' a =>
          obtain rfl : p' = q' := ho
          simp only [step, World.withParam, if_pos e2, World.assignDmi] at hok ⊢
          cases hra : a.toV3 with
          | ok m => exact hbind _
          | error e => rw [hra] at hok; exact absurd hok (by simp [Res.raise])
        | _ => exact absurd ho (by simp [Rebinds])
      rw [hnew] at e'
      omega
    · rw [e'] at e1
      omega
  rcases h2.fresh q hq with ⟨e1, e2⟩ | e1
  · exact hnone q e2 (e1.symm.trans e.symm)
  · have := h1.arrays
    have hge : (step (run empty ops : World K) op).st.arrays ≤ r := e ▸ e1
    omega

/-! ### Refinement: parameters may be taken for their matrices -/

/-- The matrices of all parameters. -/
def World.vals (w : World K) : List (M3 K) := (List.range w.params).map w.value

theorem vals_get (w : World K) (p : ℕ) : w.vals[p]? = if p < w.params then some (w.value p) else none := by
  rw [World.vals, List.getElem?_map]
  split
  · rename_i h
    rw [List.getElem?_range h]
    rfl
  · rename_i h
    rw [List.getElem?_eq_none (by simpa using h)]
    rfl

theorem vals_same {w u : World K} (hp : u.params = w.params) (hv : ∀ q, q < w.params → u.value q = w.value q) : u.vals = w.vals := by
  refine List.ext_getElem? fun q => ?_
  rw [vals_get, vals_get, hp]
  split
  · rename_i h
    rw [hv q h]
  · rfl

theorem vals_set {w u : World K} (hp : u.params = w.params) {p : ℕ} {m : M3 K} (hm : p < w.params → u.value p = m)
    (hv : ∀ q, q < w.params → q ≠ p → u.value q = w.value q) : u.vals = w.vals.set p m := by
  refine List.ext_getElem? fun q => ?_
  rw [List.getElem?_set, vals_get, vals_get, hp]
  by_cases hq : q < w.params
  · by_cases e : p = q
    · subst e
      have hl : p < w.vals.length := by simpa [World.vals] using hq
      rw [if_pos hq, if_pos rfl, if_pos hl, hm hq]
    · rw [if_pos hq, if_neg e, if_pos hq, hv q hq fun h => e h.symm]
  · rw [if_neg hq, if_neg hq]
    split
    · rename_i e
      subst e
      rw [if_neg (by simpa [World.vals] using hq)]
    · rfl

theorem vals_append {w u : World K} (hp : u.params = w.params + 1) {m : M3 K} (hm : u.value w.params = m)
    (hv : ∀ q, q < w.params → u.value q = w.value q) : u.vals = w.vals ++ [m] := by
  rw [World.vals, hp, List.range_succ, List.map_append, World.vals]
  congr 1
  · exact List.map_congr_left fun q hq => hv q (List.mem_range.1 hq)
  · simp [hm]

theorem plain_src {w : World K} {a : Src K} (hn : ∀ r, a ≠ .array r) :
    plain w.vals a = if w.has (some a) then some (w.plainSrc a) else none := by
  cases a with
  | written a => rfl
  | array r => exact absurd rfl (hn r)
  | param p =>
    simp only [plain, vals_get, World.has, World.plainSrc]
    by_cases h : p < w.params <;> simp [h]

theorem plain_opt {w : World K} {a : Option (Src K)} (hn : ∀ r, a ≠ some (.array r)) :
    plainOpt w.vals a = if w.has a then some (a.map w.plainSrc) else none := by
  cases a with
  | none => rfl
  | some a =>
    rw [plainOpt, plain_src fun r e => hn r (e ▸ rfl)]
    split <;> rfl

theorem read_plain {w : World K} {a : Src K} (h : w.has (some a) = true) : w.read a = (w.plainSrc a).toM3 := by
  cases a with
  | written a => rfl
  | array r =>
    have hr : r < w.arrays := by simpa [World.has] using h
    simp only [World.read, World.plainSrc, toM3_rowsOf, if_pos hr]
  | param p =>
    have hp : p < w.params := by simpa [World.has] using h
    simp only [World.read, World.plainSrc, toM3_rowsOf, if_pos hp]

theorem read_missing {w : World K} {a : Src K} (h : ¬ w.has (some a) = true) : w.read a = .error .nameError := by
  cases a with
  | written a => exact absurd rfl h
  | array r =>
    have hr : ¬ r < w.arrays := by simpa [World.has] using h
    simp only [World.read, if_neg hr]
  | param p =>
    have hp : ¬ p < w.params := by simpa [World.has] using h
    simp only [World.read, if_neg hp]

/-- The two results agree. -/
def Agree (r : Res (World K)) (q : Res (List (M3 K))) : Prop := r.st.vals = q.st ∧ r.err = q.err

theorem agree_set {w : World K} (hw : w.Inv) {p : ℕ} {f : Res (World K)} {g : M3 K → Res (M3 K)}
    (hf : p < w.params → (f.err = (g (w.value p)).err) ∧
      ((f.st = w ∧ (g (w.value p)).st = w.value p) ∨ f.st = w.bind p (g (w.value p)).st)) :
    Agree (w.withParam p f) (plainSet w.vals p g) := by
  unfold World.withParam plainSet
  rw [vals_get]
  split
  · rename_i hp
    obtain ⟨h1, h2⟩ := hf hp
    refine ⟨?_, h1⟩
    rcases h2 with ⟨e1, e2⟩ | e
    · simp only
      rw [e1, e2]
      exact vals_set rfl (fun _ => rfl) fun _ _ _ => rfl
    · simp only
      rw [e]
      exact vals_set (w := w) (u := w.bind p (g (w.value p)).st) rfl (fun _ => value_bind _ _) fun q hq hne =>
        value_bind_ne hw hq hne _
  · exact ⟨rfl, rfl⟩

theorem agree_make {w : World K} (hw : w.Inv) (m : M3 K) : Agree (w.make m) (plainNew w.vals (.ok m)) :=
  ⟨vals_append rfl (value_bind _ _) fun q hq => value_bind_ne hw hq (by omega) m, rfl⟩

theorem agree_step {w : World K} (hw : w.Inv) {op : Op K} (hn : NoArray op) : Agree (step w op) (plainStep w.vals op) := by
  cases op with
  | newArray m => exact ⟨vals_same rfl fun q hq => value_alloc hw hq m, rfl⟩
  | writeArray r i j v => exact absurd hn id
  | readPart p part =>
    show Agree (w.withParam p _) (plainSet w.vals p .ok)
    unfold World.withParam plainSet
    rw [vals_get]
    split
    · refine ⟨?_, rfl⟩
      exact (vals_same (w := w) (u := w.alloc (part.eval (w.value p))) rfl fun q hq => value_alloc hw hq _).trans
        (vals_set (w := w) (u := w) rfl (fun _ => rfl) fun _ _ _ => rfl)
    · exact ⟨rfl, rfl⟩
  | new m i a d =>
    simp only [step, plainStep]
    rw [plain_opt hn.1, plain_opt hn.2]
    by_cases hm : w.has m = true
    · by_cases ha : w.has a = true
      · rw [if_pos (by rw [hm, ha]; rfl), if_pos hm, if_pos ha]
        have hb := built_create hw i d hm ha
        simp only
        unfold World.create World.keep plainNew
        rw [hb.err]
        cases (Param.init (m.map w.plainSrc) i (a.map w.plainSrc) d).err with
        | none =>
          refine ⟨vals_append ?_ hb.value fun q hq => hb.build.value hw hq, rfl⟩
          exact congrArg (· + 1) hb.build.params
        | some e => exact ⟨vals_same hb.build.params fun q hq => hb.build.value hw hq, rfl⟩
      · rw [if_neg (by simp [ha]), if_pos hm, if_neg ha]
        exact ⟨rfl, rfl⟩
    · rw [if_neg (by simp [hm]), if_neg hm]
      exact ⟨rfl, rfl⟩
  | setMatrix p a =>
    simp only [step, plainStep]
    rw [plain_src hn]
    by_cases ha : w.has (some a) = true
    · rw [if_pos ha]
      refine agree_set hw fun _ => ?_
      rw [World.assignMatrix, Param.assignMatrix, read_plain ha]
      cases (w.plainSrc a).toM3 with
      | ok n => exact ⟨rfl, .inr rfl⟩
      | error e => exact ⟨rfl, .inl ⟨rfl, rfl⟩⟩
    · rw [if_neg ha, World.assignMatrix, read_missing ha]
      unfold World.withParam
      split <;> exact ⟨rfl, rfl⟩
  | setIso p v => exact agree_set hw fun _ => ⟨rfl, .inr rfl⟩
  | setAniso p a =>
    simp only [step, plainStep]
    rw [plain_src hn]
    by_cases ha : w.has (some a) = true
    · rw [if_pos ha]
      refine agree_set hw fun _ => ?_
      rw [World.assignAniso, Param.assignAniso, read_plain ha]
      cases (w.plainSrc a).toM3 with
      | ok n => exact ⟨rfl, .inr rfl⟩
      | error e => exact ⟨rfl, .inl ⟨rfl, rfl⟩⟩
    · rw [if_neg ha, World.assignAniso, read_missing ha]
      unfold World.withParam
      split <;> exact ⟨rfl, rfl⟩
  | setDmi p a =>
    refine agree_set hw fun _ => ?_
    rw [World.assignDmi, Param.assignDmi]
    cases a.toV3 with
    | ok n => exact ⟨rfl, .inr rfl⟩
    | error e => exact ⟨rfl, .inl ⟨rfl, rfl⟩⟩
  | setEntry p i j v =>
    show Agree (w.withParam p _) (plainSet w.vals p _)
    unfold World.withParam plainSet
    rw [vals_get]
    split
    · rename_i hp
      refine ⟨?_, rfl⟩
      refine vals_set (w := w) (u := w.write (w.ref p) i j v) rfl (fun _ => if_pos rfl) fun q hq hne => ?_
      exact if_neg fun e => hne (hw.inj q p hq hp e)
    · exact ⟨rfl, rfl⟩
  | unary f p =>
    simp only [step, plainStep, World.withParam]
    rw [vals_get]
    split
    · exact agree_make hw _
    · exact ⟨rfl, rfl⟩
  | binary f p q =>
    simp only [step, plainStep, World.withParam]
    rw [vals_get, vals_get]
    by_cases hp : p < w.params
    · by_cases hq : q < w.params
      · rw [if_pos hp, if_pos hq, if_pos hp, if_pos hq]
        exact agree_make hw _
      · rw [if_pos hp, if_neg hq, if_pos hp, if_neg hq]
        exact ⟨rfl, rfl⟩
    · rw [if_neg hp, if_neg hp]
      exact ⟨rfl, rfl⟩
  | scalar f p v =>
    simp only [step, plainStep, World.withParam]
    rw [vals_get]
    split
    · exact agree_make hw _
    · exact ⟨rfl, rfl⟩

theorem observe_plain {w : World K} (hw : w.Inv) (ops : List (Op K)) (hn : ∀ op ∈ ops, NoArray op) : observe w ops = plainRun w.vals ops := by
  induction ops generalizing w with
  | nil => rfl
  | cons op ops ih =>
    have h := agree_step hw (hn op List.mem_cons_self)
    have h1 := stepped_step hw op
    simp only [observe, plainRun]
    rw [ih h1.inv fun o ho => hn o (List.mem_cons_of_mem _ ho), h.1, h.2]

/-- **C93 (refinement).** A program that neither writes into arrays nor passes them sees the parameters as plain matrices: the
matrices of all parameters at the end and all exceptions on the way are those of the functions of `Model/Param` on matrices
without identity. -/
theorem C93_plain (ops : List (Op K)) (hn : ∀ op ∈ ops, NoArray op) : observe empty ops = plainRun [] ops :=
  observe_plain inv_empty ops hn

/-! ### Examples -/

/-- Two parameters, the second one made from the first one; then the first one is changed. -/
def program : List (Op ℚ) :=
  [.new (some (.written (rowsOf 1))) none none none, .unary .pos 0, .setIso 0 5, .setDmi 1 (.vector [1, 2, 3])]

/-- C93: both exist and have different arrays, and the copy keeps its isotropic part. -/
example : (run empty program).params = 2 ∧ (run empty program).ref 0 = 3 ∧ (run empty program).ref 1 = 4 ∧
    Param.iso ((run empty program).value 1) = 1 ∧ Param.iso ((run empty program).value 0) = 5 := by
  refine ⟨rfl, rfl, rfl, ?_, ?_⟩ <;> decide +kernel

/-- C93: the premises of the frame, of the live array and of the detached array are met. -/
example : ¬ Touches (run empty program) 1 (.setIso 0 7) ∧ ¬ Rebinds 0 (.setEntry 0 0 1 7 : Op ℚ) ∧ Rebinds 0 (.setIso 0 7 : Op ℚ) ∧
    (step (run empty program) (.setIso 0 7)).err = none ∧ ∀ op ∈ program, NoArray op := by
  refine ⟨by simp [Touches], by simp [Rebinds], rfl, rfl, ?_⟩
  intro op h
  simp only [program, List.mem_cons, List.not_mem_nil, or_false] at h
  rcases h with rfl | rfl | rfl | rfl <;> simp [NoArray]

/-- **C93 needs its premise.** A write through an array that was taken before an assignment to `p.iso` is lost. -/
theorem C93_lost : ∃ (ops : List (Op ℚ)) (r : ℕ), r = (run empty ops).ref 0 ∧
    (step (step (run empty ops) (.setIso 0 5)).st (.writeArray r 0 1 7)).err = none ∧
    (step (step (run empty ops) (.setIso 0 5)).st (.writeArray r 0 1 7)).st.value 0 0 1 ≠ 7 := by
  refine ⟨[.new none none none none], 0, rfl, rfl, ?_⟩
  decide +kernel

end ParamHeap
end Magnopy
