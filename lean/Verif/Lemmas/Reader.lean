import Verif.Spec.Reader
import Verif.Model.Hdf5
import Verif.Model.Tb2j
import Verif.Lemmas.HamCons

/-!
# Lemmas: what readers build
-/

set_option autoImplicit false
set_option linter.unusedSectionVars false

namespace Magnopy

open PyDict

theorem Res.toExcept_ok {σ : Type*} {r : Res σ} {t : σ} (h : r.toExcept = .ok t) : r.err = none ∧ r.st = t := by
  unfold Res.toExcept at h
  cases hr : r.err with
  | none => rw [hr] at h; exact ⟨rfl, Except.ok.inj h⟩
  | some e => rw [hr] at h; cases h

theorem bind_ok {α β : Type*} {x : Except PyErr α} {f : α → Except PyErr β} {b : β} (h : x.bind f = .ok b) :
    ∃ a, x = .ok a ∧ f a = .ok b := by
  cases x with
  | error e => cases h
  | ok a => exact ⟨a, rfl, h⟩

/-- The distance as the code of wulfric writes it. -/
theorem length_eq {K : Type*} [Field K] (norm : V3 K → K) (cell : M3 K) (p : Atom → V3 K) (b : Bond) :
    (let v : V3 K := p b.2.1 + ![(b.2.2.1 : K), (b.2.2.2.1 : K), (b.2.2.2.2 : K)] - p b.1;
      norm fun j => v 0 * cell 0 j + v 1 * cell 1 j + v 2 * cell 2 j) = bondLength norm cell p b := by
  unfold bondLength
  simp only
  congr 1
  funext j
  simp only [Matrix.vecMul, dotProduct, Fin.sum_univ_three]

namespace St

variable {K : Type*} [Field K]

/-- `Own` for the atoms `l`. -/
structure Built (l : List Atom) (f : Atom → Option K) (δ : Bond → K) (s : St K) : Prop where
  inv : s.Inv
  alloc : s.Alloc
  noShare : s.NoShare
  atoms : s.atoms = l
  spin : s.spin = f
  dist : s.dist = δ

/-- No parameters yet. -/
structure Blank (l : List Atom) (f : Atom → Option K) (δ : Bond → K) (s : St K) : Prop where
  exch : s.exch = []
  onSite : s.onSite = []
  atoms : s.atoms = l
  spin : s.spin = f
  dist : s.dist = δ

theorem Blank.built {l : List Atom} {f : Atom → Option K} {δ : Bond → K} {s : St K} (h : s.Blank l f δ) : s.Built l f δ := by
  refine ⟨⟨⟨by rw [h.exch]; exact List.nodup_nil, by rw [h.onSite]; exact List.nodup_nil⟩, ⟨?_, ?_⟩, ?_⟩, ⟨?_, ?_⟩, ⟨?_, ?_, ?_⟩, h.atoms, h.spin, h.dist⟩
  · intro b hb; rw [h.exch] at hb; cases hb
  · intro b hb; rw [h.onSite] at hb; cases hb
  · intro _ b hb; rw [h.exch] at hb; cases hb
  · intro b r hb; rw [h.exch] at hb; cases hb
  · intro b r hb; rw [h.onSite] at hb; cases hb
  · intro b b' r hb; rw [h.exch] at hb; cases hb
  · intro b b' r hb; rw [h.onSite] at hb; cases hb
  · intro b b' r hb; rw [h.exch] at hb; cases hb

theorem Blank.empty (m : Mem K) (l : List Atom) (spin : Atom → Option K) (dist : Bond → K) : (St.empty m l spin dist).Blank l spin dist :=
  ⟨rfl, rfl, rfl, rfl, rfl⟩

theorem Blank.scaleExch {l : List Atom} {f : Atom → Option K} {δ : Bond → K} {s : St K} (h : s.Blank l f δ) (c : Bond → St K → Except PyErr K) : s.scaleExch c = .ok s := by
  rw [St.scaleExch, h.exch]; rfl

theorem Blank.scaleSite {l : List Atom} {f : Atom → Option K} {δ : Bond → K} {s : St K} (h : s.Blank l f δ) (c : Atom → St K → Except PyErr K) : s.scaleSite c = .ok s := by
  rw [St.scaleSite, h.onSite]; rfl

theorem Blank.setSN {l : List Atom} {f : Atom → Option K} {δ : Bond → K} {s : St K} (h : s.Blank l f δ) (b : Bool) : s.setSN b = .ok { s with sn := some b } := by
  unfold St.setSN
  rw [h.scaleExch, h.scaleExch]
  simp only [Res.ok_andThen, h.scaleSite]
  split_ifs <;> rfl

theorem Blank.setDC {l : List Atom} {f : Atom → Option K} {δ : Bond → K} {s : St K} (h : s.Blank l f δ) (b : Bool) : s.setDC b = .ok { s with dc := some b } := by
  have h' : Blank l f δ { s with dc := some b } := ⟨h.exch, h.onSite, h.atoms, h.spin, h.dist⟩
  unfold St.setDC
  simp only [h'.scaleExch, ite_self, Res.ok_andThen]
  cases b
  · simp only [Bool.false_eq_true, if_false, ensureNoDC, h.exch]
    rfl
  · simp only [if_true, ensureDC, h.exch]
    rfl

theorem Blank.setEF [DecidableEq K] {l : List Atom} {f : Atom → Option K} {δ : Bond → K} {s : St K} (h : s.Blank l f δ) (x : K) : s.setEF x = .ok { s with ef := some x } := by
  unfold St.setEF
  cases s.ef with
  | none => rfl
  | some y => simp only [h.scaleExch, ite_self, Res.ok_andThen]

theorem Blank.setOF [DecidableEq K] {l : List Atom} {f : Atom → Option K} {δ : Bond → K} {s : St K} (h : s.Blank l f δ) (x : K) : s.setOF x = .ok { s with osf := some x } := by
  unfold St.setOF
  cases s.osf with
  | none => rfl
  | some y => simp only [h.scaleSite, ite_self, Res.ok_andThen]

theorem Blank.flags {l : List Atom} {f : Atom → Option K} {δ : Bond → K} {s t : St K} (h : s.Blank l f δ) (h1 : t.exch = s.exch) (h2 : t.onSite = s.onSite)
    (h3 : t.atoms = s.atoms) (h4 : t.spin = s.spin) (h5 : t.dist = s.dist) : t.Blank l f δ :=
  ⟨h1.trans h.exch, h2.trans h.onSite, h3.trans h.atoms, h4.trans h.spin, h5.trans h.dist⟩

theorem Blank.setNotation [DecidableEq K] {l : List Atom} {f : Atom → Option K} {δ : Bond → K} {s t : St K} (h : s.Blank l f δ) {x : NotationArg K}
    (hx : (s.setNotation x).err = none ∧ (s.setNotation x).st = t) : t.Blank l f δ := by
  have four : ∀ d n e o, s.setFour d n e o = .ok { s with dc := some d, sn := some n, ef := some e, osf := some o } := by
    intro d n e o
    unfold setFour
    rw [h.setDC, Res.ok_andThen]
    have h1 : Blank l f δ { s with dc := some d } := h.flags rfl rfl rfl rfl rfl
    rw [h1.setSN, Res.ok_andThen]
    have h2 : Blank l f δ { s with dc := some d, sn := some n } := h.flags rfl rfl rfl rfl rfl
    rw [h2.setEF, Res.ok_andThen]
    have h3 : Blank l f δ { s with dc := some d, sn := some n, ef := some e } := h.flags rfl rfl rfl rfl rfl
    rw [h3.setOF]
  obtain ⟨-, rfl⟩ := hx
  unfold St.setNotation
  split
  · split
    · rw [four]; exact h.flags rfl rfl rfl rfl rfl
    · exact h
  · rw [four]; exact h.flags rfl rfl rfl rfl rfl
  · rw [four]; exact h.flags rfl rfl rfl rfl rfl
  · exact h
  · exact h

theorem findOrAdd_known {s s' : St K} {x : AtomArg} {a : Atom} (h : s.findOrAdd x = .ok (s', a))
    (hx : ∀ b, x = .atom b → b ∈ s.atoms) : s' = s := by
  cases x with
  | name n =>
    unfold findOrAdd at h
    cases hg : s.getAtom n with
    | error e => simp [hg, Except.map] at h
    | ok b =>
      simp only [hg, Except.map, Except.ok.injEq, Prod.mk.injEq] at h
      exact h.1.symm
  | atom b =>
    simp only [findOrAdd, if_pos (hx b rfl), Except.ok.injEq, Prod.mk.injEq] at h
    exact h.1.symm

theorem Built.resolve {l : List Atom} {f : Atom → Option K} {δ : Bond → K} {s : St K} (h : s.Built l f δ) (m : M3 K) : (s.resolve (.fresh m)).1.Built l f δ := by
  have ht := resolve_toHam s (.fresh m)
  refine ⟨h.inv.congr ht, ⟨fun b r hb => ?_, fun b r hb => ?_⟩, h.noShare.congr ht, (congrArg Ham.atoms ht).trans h.atoms,
    (congrArg Ham.spin ht).trans h.spin, (congrArg Ham.dist ht).trans h.dist⟩
  · exact Nat.lt_succ_of_lt (h.alloc.exch b r hb)
  · exact Nat.lt_succ_of_lt (h.alloc.site b r hb)

theorem Built.addExchange {l : List Atom} {f : Atom → Option K} {δ : Bond → K} {s : St K} (h : s.Built l f δ) {x y : AtomArg} (hx : ∀ b, x = .atom b → b ∈ s.atoms)
    (hy : ∀ b, y = .atom b → b ∈ s.atoms) (R : Cell) (m : M3 K) : (s.addExchange x y R (.fresh m)).st.Built l f δ := by
  have hinv := addExchange_inv h.inv x y R (.fresh m)
  unfold St.addExchange at hinv ⊢
  cases h1 : s.findOrAdd x with
  | error e => exact h
  | ok q =>
    obtain ⟨s1, a⟩ := q
    have := findOrAdd_known h1 hx
    subst this
    simp only [h1] at hinv ⊢
    cases h2 : s1.findOrAdd y with
    | error e => exact h
    | ok q =>
      obtain ⟨s2, b⟩ := q
      have := findOrAdd_known h2 hy
      subst this
      simp only [h2, Res.st_ok] at hinv ⊢
      have h3 := h.resolve m
      have hr := resolve_spec (p := .fresh m) h.alloc trivial
      exact ⟨hinv, putBond_alloc h3.alloc _ hr.1.1, putBond_noShare h3.alloc h3.noShare _ hr.1,
        (putBond_frame _ _ _).1.trans h3.atoms,
        (putBond_frame _ _ _).2.2.2.2.2.2.1.trans h3.spin, (putBond_frame _ _ _).2.2.2.2.2.2.2.trans h3.dist⟩

theorem Built.addOnSite {l : List Atom} {f : Atom → Option K} {δ : Bond → K} {s : St K} (h : s.Built l f δ) {x : AtomArg} (hx : ∀ b, x = .atom b → b ∈ s.atoms)
    (m : M3 K) : (s.addOnSite x (.fresh m)).st.Built l f δ := by
  have hinv := addOnSite_inv h.inv x (.fresh m)
  unfold St.addOnSite at hinv ⊢
  cases h1 : s.findOrAdd x with
  | error e => exact h
  | ok q =>
    obtain ⟨s1, a⟩ := q
    have := findOrAdd_known h1 hx
    subst this
    simp only [h1, Res.st_ok] at hinv ⊢
    have h3 := h.resolve m
    obtain ⟨hr1, hr2, hr3⟩ := (resolve_spec (p := .fresh m) h.alloc trivial).1
    refine ⟨hinv, ⟨h3.alloc.exch, fun c q hc => ?_⟩, ⟨h3.noShare.exch, fun c c' q hc hc' => ?_, fun b c q hb hc => ?_⟩, h3.atoms, h3.spin, h3.dist⟩
    · simp only [get?_set] at hc
      split_ifs at hc with e
      · rw [← Option.some.inj hc]; exact hr1
      · exact h3.alloc.site c q hc
    · simp only [get?_set] at hc hc'
      split_ifs at hc hc' with e e' e'
      · rw [← e, ← e']
      · rw [← Option.some.inj hc] at hc'; exact absurd hc' (hr3 _)
      · rw [← Option.some.inj hc'] at hc; exact absurd hc (hr3 _)
      · exact h3.noShare.site c c' q hc hc'
    · simp only [get?_set] at hc
      split_ifs at hc with e
      · rw [← Option.some.inj hc] at hb; exact hr2 _ hb
      · exact h3.noShare.cross b c q hb hc

theorem Built.own {l : List Atom} {f : Atom → Option K} {δ : Bond → K} {s : St K} (h : s.Built l f δ) (hl : ∀ (i : ℕ) a, l[i]? = some a → a.index = i + 1) : s.Own :=
  ⟨h.inv, h.alloc, h.noShare, by rw [h.atoms]; exact hl⟩

end St

/-- Atoms are numbered from one in the order in which they are added. -/
theorem index_mapIdx {α : Type*} (f : α → String) (xs : List α) (i : ℕ) (a : Atom)
    (h : (xs.mapIdx fun i d => (⟨f d, (i : ℤ) + 1⟩ : Atom))[i]? = some a) : a.index = i + 1 := by
  rw [List.getElem?_mapIdx] at h
  obtain ⟨x, _, rfl⟩ := Option.map_eq_some_iff.1 h
  rfl

/-! ### HDF5 -/

namespace H5

variable {K : Type} [Field K]

theorem foldE_inv {α σ : Type} {P : σ → Prop} {f : α → σ → Except PyErr σ} (hf : ∀ a s t, P s → f a s = .ok t → P t)
    (xs : List α) {s t : σ} (hs : P s) (h : foldE f xs s = .ok t) : P t := by
  induction xs generalizing s with
  | nil => cases h; exact hs
  | cons x xs ih =>
    obtain ⟨u, h1, h2⟩ := bind_ok h
    exact ih (hf x s u hs h1) h2

theorem atomOf_mem {s : St K} {n : String} {a : Atom} (h : atomOf s n = .ok a) : a ∈ s.atoms := by
  unfold atomOf at h
  cases hg : s.getAtom n with
  | error e => rw [hg] at h; cases h
  | ok b => rw [hg] at h; cases h; exact St.getAtom_mem hg

theorem readBondG_built {l : List Atom} {f : Atom → Option K} {δ : Bond → K} (c : K) (b : BondG K) (s t : St K) (hs : s.Built l f δ) (h : readBondG c b s = .ok t) : t.Built l f δ := by
  obtain ⟨a1, h1, h2⟩ := bind_ok h
  obtain ⟨a2, h3, h4⟩ := bind_ok h2
  rw [← (Res.toExcept_ok h4).2]
  exact hs.addExchange (fun _ e => by cases e; exact atomOf_mem h1) (fun _ e => by cases e; exact atomOf_mem h3) _ _

theorem readSiteG_built {l : List Atom} {f : Atom → Option K} {δ : Bond → K} (c : K) (b : SiteG K) (s t : St K) (hs : s.Built l f δ) (h : readSiteG c b s = .ok t) : t.Built l f δ := by
  obtain ⟨a1, h1, h2⟩ := bind_ok h
  rw [← (Res.toExcept_ok h2).2]
  exact hs.addOnSite (fun _ e => by cases e; exact atomOf_mem h1) _

theorem readNotn_blank [DecidableEq K] {l : List Atom} {f : Atom → Option K} {δ : Bond → K} {g : Group K} {s t : St K} (hs : s.Blank l f δ) (h : readNotn g s = .ok t) : t.Blank l f δ := by
  unfold readNotn at h
  split_ifs at h
  · obtain ⟨n, -, h⟩ := bind_ok h
    obtain ⟨b, -, h⟩ := bind_ok h
    obtain ⟨s1, h1, h⟩ := bind_ok h
    obtain ⟨s2, h2, h⟩ := bind_ok h
    rw [hs.setSN] at h1
    have hs1 : s1.Blank l f δ := by rw [← (Res.toExcept_ok h1).2]; exact hs.flags rfl rfl rfl rfl rfl
    have hs2 : s2.Blank l f δ := by
      unfold readEx at h2
      split_ifs at h2
      · obtain ⟨d, -, h2⟩ := bind_ok h2
        obtain ⟨u, h3, h2⟩ := bind_ok h2
        obtain ⟨e, -, h2⟩ := bind_ok h2
        rw [hs1.setDC] at h3
        have hu : u.Blank l f δ := by rw [← (Res.toExcept_ok h3).2]; exact hs1.flags rfl rfl rfl rfl rfl
        rw [hu.setEF] at h2
        rw [← (Res.toExcept_ok h2).2]; exact hu.flags rfl rfl rfl rfl rfl
      · cases h2; exact hs1
    unfold readOs at h
    split_ifs at h
    · obtain ⟨e, -, h⟩ := bind_ok h
      rw [hs2.setOF] at h
      rw [← (Res.toExcept_ok h).2]; exact hs2.flags rfl rfl rfl rfl rfl
    · cases h; exact hs2
  · cases h; exact hs

theorem loadGroup_own [LinearOrder K] {L : Txt.Lib K} {g : Group K} {y : Full K} (h : loadGroup L g = .ok y) :
    y.ham.Own ∧ (∀ a, y.ham.spin a = (y.spinVec a).map L.norm) ∧ ∀ b, y.ham.dist b = bondLength L.norm y.cell y.pos b := by
  unfold loadGroup at h
  obtain ⟨c, -, h⟩ := bind_ok h
  obtain ⟨rs, -, h⟩ := bind_ok h
  obtain ⟨s1, h1, h⟩ := bind_ok h
  obtain ⟨s2, h2, h⟩ := bind_ok h
  obtain ⟨s3, h3, h⟩ := bind_ok h
  obtain ⟨q, -, h⟩ := bind_ok h
  obtain ⟨l, f, δ, hl, hf, hδ, hx⟩ : ∃ (l : List Atom) (f : Atom → Option K) (δ : Bond → K), (∀ (i : ℕ) (a : Atom), l[i]? = some a → a.index = i + 1) ∧
      (∀ a, f a = ((crystal L (c • g.cell) rs).spinVec a).map L.norm) ∧ (∀ b, δ b = bondLength L.norm (crystal L (c • g.cell) rs).cell (crystal L (c • g.cell) rs).pos b) ∧
      (crystal L (c • g.cell) rs).ham.Blank l f δ :=
    ⟨_, _, _, index_mapIdx Rec.name rs, fun a => (Option.map_map _ _ _).symm, fun b => length_eq L.norm _ _ b, ⟨rfl, rfl, rfl, rfl, rfl⟩⟩
  have hb := (readNotn_blank hx h1).built
  have hb2 : s2.Built l f δ := by
    unfold readExchangeG at h2
    split at h2
    · cases h2; exact hb
    · obtain ⟨c, -, h2⟩ := bind_ok h2
      exact foldE_inv (readBondG_built c) _ hb h2
  have hb3 : s3.Built l f δ := by
    unfold readOnSiteG at h3
    split at h3
    · cases h3; exact hb2
    · obtain ⟨c, -, h3⟩ := bind_ok h3
      exact foldE_inv (readSiteG_built c) _ hb2 h3
  cases hn : readConeG L (c • g.cell) g with
  | error e => rw [hn] at h; cases h
  | ok n =>
    rw [hn] at h
    rw [← Except.ok.inj h]
    exact ⟨hb3.own hl, fun a => (congrFun hb3.spin a).trans (hf a), fun b => (congrFun hb3.dist b).trans (hδ b)⟩

end H5

/-! ### Text -/

namespace Txt

variable {K : Type} [Field K]

theorem addParts_built {l : List Atom} {f : Atom → Option K} {δ : Bond → K} {n1 n2 : Str} {R : Cell} {p : Parts K} {s t : St K} (hs : s.Built l f δ)
    (h : addParts n1 n2 R p s = .ok t) : t.Built l f δ := by
  unfold addParts at h
  split at h
  · cases h
  · rw [← (Res.toExcept_ok h).2]
    exact hs.addExchange (fun _ e => by cases e) (fun _ e => by cases e) _ _

theorem bondLines_built {L : Lib K} {l : List Atom} {f : Atom → Option K} {δ : Bond → K} {n1 n2 : Str} {R : Cell} : ∀ (n : ℕ) (ls : List Str), ls.length ≤ n →
    ∀ (p : Parts K) (s t : St K), s.Built l f δ → bondLines L n1 n2 R ls p s = .ok t → t.Built l f δ := by
  intro n
  induction n with
  | zero =>
    intro ls hl p s t hs h
    obtain rfl : ls = [] := List.length_eq_zero_iff.1 (Nat.le_zero.1 hl)
    rw [bondLines] at h
    cases h; exact hs
  | succ n ih =>
    intro ls hl p s t hs h
    cases ls with
    | nil => rw [bondLines] at h; cases h; exact hs
    | cons w ls =>
      have hl' : ls.length ≤ n := Nat.le_of_succ_le_succ hl
      have step : ∀ (p' : Parts K) (rest : List Str), rest.length ≤ n →
          (addParts n1 n2 R p' s).bind (bondLines L n1 n2 R rest p') = .ok t → t.Built l f δ := by
        intro p' rest hr h
        obtain ⟨u, h1, h2⟩ := bind_ok h
        exact ih rest hr p' u t (addParts_built hs h1) h2
      rw [bondLines.eq_def] at h
      simp only at h
      split_ifs at h
      · split at h
        · cases h
        · exact step _ _ hl' h
      · split at h
        · cases h
        · exact step _ _ hl' h
      · split at h
        · cases h
        · exact step _ _ hl' h
      · split at h
        · split at h
          · refine step _ _ ?_ h
            simp only [List.length_cons] at hl'
            omega
          all_goals cases h
        · cases h
      · exact step _ _ hl' h

theorem readBonds_built {L : Lib K} {l : List Atom} {f : Atom → Option K} {δ : Bond → K} {gs : List (List Str)} {s t : St K} (hs : s.Built l f δ)
    (h : readBonds L gs s = .ok t) : t.Built l f δ := by
  induction gs generalizing s with
  | nil => rw [readBonds] at h; cases h; exact hs
  | cons g gs ih =>
    rw [readBonds] at h
    obtain ⟨u, h1, h2⟩ := bind_ok h
    refine ih ?_ h2
    unfold readBond at h1
    split at h1
    · obtain ⟨i, -, h1⟩ := bind_ok h1
      obtain ⟨j, -, h1⟩ := bind_ok h1
      obtain ⟨k, -, h1⟩ := bind_ok h1
      exact bondLines_built _ _ (le_refl _) _ _ _ hs h1
    · cases h1

theorem siteLines_built {L : Lib K} {c : K} {l : List Atom} {f : Atom → Option K} {δ : Bond → K} : ∀ (n : ℕ) (ls : List Str), ls.length ≤ n →
    ∀ (s t : St K), s.Built l f δ → siteLines L c ls s = .ok t → t.Built l f δ := by
  intro n
  induction n with
  | zero =>
    intro ls hl s t hs h
    obtain rfl : ls = [] := List.length_eq_zero_iff.1 (Nat.le_zero.1 hl)
    rw [siteLines] at h
    cases h; exact hs
  | succ n ih =>
    intro ls hl s t hs h
    cases ls with
    | nil => rw [siteLines] at h; cases h; exact hs
    | cons w ls =>
      have hl' : ls.length ≤ n := Nat.le_of_succ_le_succ hl
      rw [siteLines] at h
      split_ifs at h
      · exact ih ls hl' s t hs h
      · cases hg : s.getAtom (String.ofList w.strip) with
        | error e => rw [hg] at h; cases h
        | ok a =>
          simp only [hg] at h
          cases ls with
          | nil => cases h
          | cons v rest =>
            simp only at h
            cases hm : siteMatrix L c v.split with
            | error e => rw [hm] at h; cases h
            | ok m =>
              simp only [hm] at h
              obtain ⟨u, h1, h2⟩ := bind_ok h
              refine ih rest (Nat.le_of_succ_le hl') u t ?_ h2
              rw [← (Res.toExcept_ok h1).2]
              exact hs.addOnSite (fun _ e => by cases e; exact St.getAtom_mem hg) _

theorem readNotation_blank [DecidableEq K] {L : Lib K} {l : List Atom} {f : Atom → Option K} {δ : Bond → K} {ls : List Str} {s t : St K} (hs : s.Blank l f δ)
    (h : readNotationLines L ls s = .ok t) : t.Blank l f δ := by
  induction ls generalizing s with
  | nil => rw [readNotationLines] at h; cases h; exact hs
  | cons w ls ih =>
    rw [readNotationLines] at h
    obtain ⟨u, h1, h2⟩ := bind_ok h
    refine ih ?_ h2
    unfold notationLine at h1
    split_ifs at h1
    · obtain ⟨x, -, h1⟩ := bind_ok h1
      rw [hs.setSN] at h1
      rw [← (Res.toExcept_ok h1).2]; exact hs.flags rfl rfl rfl rfl rfl
    · obtain ⟨x, -, h1⟩ := bind_ok h1
      rw [hs.setDC] at h1
      rw [← (Res.toExcept_ok h1).2]; exact hs.flags rfl rfl rfl rfl rfl
    · obtain ⟨x, -, h1⟩ := bind_ok h1
      rw [hs.setEF] at h1
      rw [← (Res.toExcept_ok h1).2]; exact hs.flags rfl rfl rfl rfl rfl
    · obtain ⟨x, -, h1⟩ := bind_ok h1
      rw [hs.setOF] at h1
      rw [← (Res.toExcept_ok h1).2]; exact hs.flags rfl rfl rfl rfl rfl
    · cases h1; exact hs

theorem load_own [LinearOrder K] {L : Lib K} {text : List Str} {y : Loaded K} (h : load L text = .ok y) :
    y.ham.Own ∧ (∀ a, y.ham.spin a = (dataOf y.data a).map fun d => L.norm d.spin) ∧
      ∀ b, y.ham.dist b = bondLength L.norm y.cell (fun a => ((dataOf y.data a).map AtomData.pos).getD 0) b := by
  unfold load at h
  simp only at h
  split at h
  · cases h
  · cases h
  · next found _ =>
    cases hr : readAll L ((filter text).map Prod.fst) found with
    | error e => rw [hr] at h; cases h
    | ok z =>
      rw [hr] at h
      obtain rfl : z = y := Except.ok.inj h
      unfold readAll at hr
      obtain ⟨⟨cell, scale⟩, -, hr⟩ := bind_ok hr
      obtain ⟨data, -, hr⟩ := bind_ok hr
      obtain ⟨s1, h1, hr⟩ := bind_ok hr
      obtain ⟨s2, h2, hr⟩ := bind_ok hr
      obtain ⟨s3, h3, hr⟩ := bind_ok hr
      obtain ⟨cone, -, hr⟩ := bind_ok hr
      obtain ⟨spiral, -, hr⟩ := bind_ok hr
      obtain ⟨l, f, δ, hl, hf, hδ, hb1⟩ : ∃ (l : List Atom) (f : Atom → Option K) (δ : Bond → K), (∀ (i : ℕ) (a : Atom), l[i]? = some a → a.index = i + 1) ∧
          (∀ a, f a = (dataOf data a).map fun d => L.norm d.spin) ∧
          (∀ b, δ b = bondLength L.norm cell (fun a => ((dataOf data a).map AtomData.pos).getD 0) b) ∧ (mkHam L cell data).Blank l f δ :=
        ⟨_, _, _, index_mapIdx (fun d => String.ofList d.name) data, fun _ => rfl, fun b => length_eq L.norm _ _ b, ⟨rfl, rfl, rfl, rfl, rfl⟩⟩
      have hs1 : s1.Built l f δ := by
        unfold ifNotation at h1
        split_ifs at h1
        · obtain ⟨t, -, h1⟩ := bind_ok h1
          exact (readNotation_blank hb1 h1).built
        · cases h1; exact hb1.built
      have hs2 : s2.Built l f δ := by
        unfold ifSection at h2
        split_ifs at h2
        · obtain ⟨t, -, h2⟩ := bind_ok h2
          unfold readExchange at h2
          obtain ⟨_, -, h2⟩ := bind_ok h2
          exact readBonds_built hs1 h2
        · cases h2; exact hs1
      have hs3 : s3.Built l f δ := by
        unfold ifSection at h3
        split_ifs at h3
        · obtain ⟨t, -, h3⟩ := bind_ok h3
          unfold readOnSite at h3
          obtain ⟨_, -, h3⟩ := bind_ok h3
          exact siteLines_built _ _ (le_refl _) _ _ hs2 h3
        · cases h3; exact hs2
      rw [← Except.ok.inj hr]
      exact ⟨hs3.own hl, fun a => (congrFun hs3.spin a).trans (hf a), fun b => (congrFun hs3.dist b).trans (hδ b)⟩

end Txt

/-! ### TB2J -/

namespace Tb2j

variable {K : Type} [Field K]

theorem bonds_built {L : Txt.Lib K} {l : List Atom} {f : Atom → Option K} {δ : Bond → K} (n : ℕ) (ls : List Str) {s t : St K} (hs : s.Built l f δ)
    (h : bonds L n ls s = .ok t) : t.Built l f δ := by
  induction n generalizing ls s with
  | zero => cases h; exact hs
  | succ n ih =>
    rw [bonds] at h
    split at h
    · split at h
      · split at h
        · cases h
        · split at h
          · cases h
          · next s' hadd =>
            have hs' : s'.Built l f δ := by
              unfold add at hadd
              split at hadd
              · exact Txt.addParts_built hs hadd
              · cases hadd
            split_ifs at h
            · exact ih _ hs' h
            · cases h; exact hs'
      all_goals cases h
    · cases h

theorem load_own [LinearOrder K] {L : Txt.Lib K} {ls : List Str} {y : H5.Full K} (h : load L ls = .ok y) :
    y.ham.Own ∧ (∀ a, y.ham.spin a = (y.spinVec a).map L.norm) ∧ ∀ b, y.ham.dist b = bondLength L.norm y.cell y.pos b := by
  unfold load at h
  split at h
  · cases h
  · next hd line rest _ =>
    cases hst : start L hd with
    | error e => rw [hst] at h; cases h
    | ok s =>
      simp only [hst] at h
      cases hex : exchange L line rest s with
      | error e => rw [hex] at h; cases h
      | ok s' =>
        simp only [hex, Except.ok.injEq] at h
        obtain ⟨l, hl, hs⟩ : ∃ l : List Atom, (∀ (i : ℕ) (a : Atom), l[i]? = some a → a.index = i + 1) ∧
            s.Built l (fun _ => none) fun b => bondLength L.norm hd.cell (fun a => ((hd.atoms[(a.index - 1).toNat]?).map TbAtom.pos).getD 0) b := by
          refine ⟨_, index_mapIdx (fun d => String.ofList d.name) hd.atoms, ?_⟩
          rw [show (fun b => bondLength L.norm hd.cell (fun a => ((hd.atoms[(a.index - 1).toNat]?).map TbAtom.pos).getD 0) b) = _ from
            funext fun b => (length_eq L.norm hd.cell (fun a => ((hd.atoms[(a.index - 1).toNat]?).map TbAtom.pos).getD 0) b).symm]
          unfold start at hst
          exact (St.Blank.setNotation (St.Blank.empty _ _ _ _) (Res.toExcept_ok hst)).built
        have hs' : s'.Built l (fun _ => none) fun b => bondLength L.norm hd.cell (fun a => ((hd.atoms[(a.index - 1).toNat]?).map TbAtom.pos).getD 0) b := by
          unfold exchange at hex
          split at hex
          · cases hex; exact hs
          · exact bonds_built _ _ hs hex
        rw [← h]
        exact ⟨hs'.own hl, fun a => congrFun hs'.spin a, fun b => congrFun hs'.dist b⟩

end Tb2j

end Magnopy
