import Verif.Lemmas.HamInv
import Verif.Spec.History

/-!
# Helper lemmas: values of bonds under the public operations
-/

set_option autoImplicit false

set_option linter.unusedSectionVars false

namespace Magnopy

open PyDict

namespace St

variable {K : Type*} [Field K]

/-- `ham[b].matrix` after `self._exchange[b] = r` and the mirror rule. -/
theorem putBond_valE {s : St K} (ha : s.Alloc) {b : Bond} {r : ℕ} (hr : r < s.next) (c : Bond) :
    (s.putBond b r).valE c =
      if c = b then some (s.cell r)
      else if s.dc = some true ∧ c = b.mirror ∧ b.mirror ∉ s.exch.keys then some (Param.T (s.cell r))
      else s.valE c := by
  have hcell : ∀ q, q < s.next → Function.update s.cell s.next (Param.T (s.cell r)) q = s.cell q := by
    intro q hq
    rw [Function.update_of_ne (by omega)]
  unfold putBond
  simp only
  by_cases hcb : c = b
  · subst hcb
    rw [if_pos rfl]
    split
    · next h =>
      have hne : c.mirror ≠ c := by
        rintro e
        have := h.2
        rw [e, get?_set_self] at this
        cases this
      simp [valE, alloc, get?_set, hne, hcell r hr]
    · simp [valE]
  · have hbc : b ≠ c := fun e => hcb e.symm
    rw [if_neg hcb]
    split
    · next h =>
      have hm : b.mirror ∉ s.exch.keys := by
        have := get?_eq_none_iff.1 h.2
        rw [mem_keys_set, not_or] at this
        exact this.2
      by_cases hcm : c = b.mirror
      · subst hcm
        simp [valE, alloc, h.1, hm]
      · have hmc : b.mirror ≠ c := fun e => hcm e.symm
        simp only [hcm, false_and, and_false, if_false]
        simp only [valE, alloc, get?_set, hmc, hbc, if_false]
        cases hg : s.exch.get? c with
        | none => rfl
        | some q => simp [hcell q (ha.exch c q hg)]
    · next h =>
      have : ¬ (s.dc = some true ∧ c = b.mirror ∧ b.mirror ∉ s.exch.keys) := by
        rintro ⟨h1, h2, h3⟩
        apply h
        refine ⟨h1, ?_⟩
        rw [get?_eq_none_iff, mem_keys_set, not_or]
        exact ⟨fun e => hcb (h2.trans e), h3⟩
      rw [if_neg this]
      simp [valE, get?_set, hbc]

theorem putBond_valO {s : St K} (ha : s.Alloc) (b : Bond) (r : ℕ) (a : Atom) :
    (s.putBond b r).valO a = s.valO a := by
  unfold putBond
  simp only
  split
  · simp only [valO, alloc]
    cases hg : s.onSite.get? a with
    | none => rfl
    | some q =>
      have := ha.site a q hg
      have : q ≠ s.next := by omega
      simp [this]
  · rfl

theorem putBond_ref {s : St K} (b : Bond) (r : ℕ) {c : Bond} {q : ℕ}
    (h : (s.putBond b r).exch.get? c = some q) :
    (c = b ∧ q = r) ∨ (c ≠ b ∧ c = b.mirror ∧ q = s.next ∧ (s.putBond b r).next = s.next + 1) ∨
      (c ≠ b ∧ s.exch.get? c = some q) := by
  unfold putBond at h ⊢
  simp only at h ⊢
  split at h
  · next h1 =>
    have hne : b ≠ b.mirror := by
      intro e
      have := h1.2
      rw [← e, get?_set_self] at this
      cases this
    simp only [alloc, get?_set] at h
    by_cases h2 : b.mirror = c
    · rw [if_pos h2] at h
      simp only [Option.some.injEq] at h
      refine Or.inr (Or.inl ⟨fun e => hne (e.symm.trans h2.symm), h2.symm, h.symm, ?_⟩)
      rw [if_pos h1]
      rfl
    · rw [if_neg h2] at h
      by_cases h3 : b = c
      · rw [if_pos h3] at h
        simp only [Option.some.injEq] at h
        exact Or.inl ⟨h3.symm, h.symm⟩
      · rw [if_neg h3] at h
        exact Or.inr (Or.inr ⟨fun e => h3 e.symm, h⟩)
  · simp only [get?_set] at h
    by_cases h3 : b = c
    · rw [if_pos h3] at h
      simp only [Option.some.injEq] at h
      exact Or.inl ⟨h3.symm, h.symm⟩
    · rw [if_neg h3] at h
      exact Or.inr (Or.inr ⟨fun e => h3 e.symm, h⟩)

theorem putBond_next (s : St K) (b : Bond) (r : ℕ) : s.next ≤ (s.putBond b r).next := by
  unfold putBond
  simp only
  split
  · simp [alloc]
  · exact le_refl _

theorem putBond_alloc {s : St K} (ha : s.Alloc) (b : Bond) {r : ℕ} (hr : r < s.next) :
    (s.putBond b r).Alloc := by
  have hn := putBond_next s b r
  refine ⟨fun c q h => ?_, fun a q h => ?_⟩
  · rcases putBond_ref b r h with ⟨_, rfl⟩ | ⟨_, _, rfl, h⟩ | ⟨_, h⟩
    · omega
    · omega
    · have := ha.exch c q h; omega
  · rw [(putBond_frame s b r).2.1] at h
    have := ha.site a q h; omega

theorem putBond_noShare {s : St K} (ha : s.Alloc) (hs : s.NoShare) (b : Bond) {r : ℕ}
    (hu : s.Unshared (.obj r)) : (s.putBond b r).NoShare := by
  obtain ⟨hr, hu1, hu2⟩ := hu
  refine ⟨fun c c' q h h' => ?_, ?_, fun c a q h h' => ?_⟩
  · rcases putBond_ref b r h with ⟨h1, h2⟩ | ⟨h0, h1, h2, _⟩ | ⟨_, h2⟩ <;>
      rcases putBond_ref b r h' with ⟨h3, h4⟩ | ⟨h0', h3, h4, _⟩ | ⟨_, h4⟩
    · rw [h1, h3]
    · omega
    · rw [h2] at h4; exact absurd h4 (hu1 _)
    · omega
    · rw [h1, h3]
    · have := ha.exch _ _ h4; omega
    · rw [h4] at h2; exact absurd h2 (hu1 _)
    · have := ha.exch _ _ h2; omega
    · exact hs.exch _ _ _ h2 h4
  · rw [(putBond_frame s b r).2.1]; exact hs.site
  · rw [(putBond_frame s b r).2.1] at h'
    rcases putBond_ref b r h with ⟨h1, h2⟩ | ⟨h0, h1, h2, _⟩ | ⟨_, h2⟩
    · rw [h2] at h'; exact hu2 _ h'
    · have := ha.site _ _ h'; omega
    · exact hs.cross _ _ _ h2 h'

theorem putBond_cons {s : St K} (ha : s.Alloc) (hc : s.Cons) (b : Bond) {r : ℕ} (hr : r < s.next)
    (hm : ∀ m', s.valE b.mirror = some m' → b.mirror ≠ b → m' = Param.T (s.cell r))
    (hself : b.mirror = b → Param.T (s.cell r) = s.cell r) :
    (s.putBond b r).Cons := by
  intro c m m' h h'
  change _ = Param.T _
  have hTT : ∀ x : M3 K, Param.T (Param.T x) = x := fun x => Matrix.transpose_transpose x
  rw [putBond_valE ha hr] at h h'
  by_cases hcb : c = b
  · subst hcb
    rw [if_pos rfl] at h
    simp only [Option.some.injEq] at h
    subst h
    by_cases hs : c.mirror = c
    · rw [if_pos hs] at h'
      simp only [Option.some.injEq] at h'
      rw [← h']; exact (hself hs).symm
    · rw [if_neg hs] at h'
      split_ifs at h' with h1
      · simp only [Option.some.injEq] at h'; exact h'.symm
      · exact hm m' h' hs
  · rw [if_neg hcb] at h
    by_cases hmb : c.mirror = b
    · have hcm : c = b.mirror := Bond.mirror_eq_iff.1 hmb
      rw [if_pos hmb] at h'
      simp only [Option.some.injEq] at h'
      split_ifs at h with h1
      · simp only [Option.some.injEq] at h
        rw [← h, ← h', hTT]
      · rw [hcm] at h
        rw [hm m h (fun e => hcb (hcm.trans e)), ← h', hTT]
    · rw [if_neg hmb] at h'
      have h1 : ¬ (s.dc = some true ∧ c = b.mirror ∧ b.mirror ∉ s.exch.keys) := by
        rintro ⟨_, e, _⟩; exact hmb (Bond.mirror_eq_iff.2 e)
      have h2 : ¬ (s.dc = some true ∧ c.mirror = b.mirror ∧ b.mirror ∉ s.exch.keys) := by
        rintro ⟨_, e, _⟩; exact hcb (Bond.mirror_injective e)
      rw [if_neg h1] at h
      rw [if_neg h2] at h'
      exact hc c m m' h h'

/-! ### The combined invariant -/

/-- Invariant of histories that keep parameter objects unshared and mirrors consistent. -/
structure Inv2 (s : St K) : Prop where
  inv : s.Inv
  alloc : s.Alloc
  noShare : s.NoShare
  cons : s.Cons

/-- The invariant only depends on the dictionaries, the flag, the atoms, and values of the stored
objects. -/
theorem Inv2.of_same {s t : St K} (hs : s.Inv2) (hi : t.Inv) (h1 : ∀ b q, t.exch.get? b = some q → s.exch.get? b = some q)
    (h2 : ∀ a q, t.onSite.get? a = some q → s.onSite.get? a = some q) (hn : s.next ≤ t.next)
    (hc : ∀ b q, s.exch.get? b = some q → t.cell q = s.cell q) : t.Inv2 := by
  refine ⟨hi, ⟨fun b r h => lt_of_lt_of_le (hs.alloc.exch b r (h1 _ _ h)) hn,
    fun a r h => lt_of_lt_of_le (hs.alloc.site a r (h2 _ _ h)) hn⟩,
    ⟨fun b b' r h h' => hs.noShare.exch b b' r (h1 _ _ h) (h1 _ _ h'),
      fun b b' r h h' => hs.noShare.site b b' r (h2 _ _ h) (h2 _ _ h'),
      fun b a r h h' => hs.noShare.cross b a r (h1 _ _ h) (h2 _ _ h')⟩, ?_⟩
  intro b m m' h h'
  have key : ∀ b m, t.valE b = some m → s.valE b = some m := by
    intro b m h
    unfold valE at h ⊢
    cases hg : t.exch.get? b with
    | none => rw [hg] at h; cases h
    | some q =>
      rw [hg] at h
      have := h1 _ _ hg
      rw [this]
      simpa [hc b q this] using h
  exact hs.cons b m m' (key _ _ h) (key _ _ h')

theorem resolve_spec {s : St K} (hs : s.Alloc) {p : ParamArg K} (hp : s.Unshared p) :
    (s.resolve p).1.Unshared (.obj (s.resolve p).2) ∧ (s.resolve p).1.cell (s.resolve p).2 = p.value s ∧
    s.next ≤ (s.resolve p).1.next ∧ (∀ q < s.next, (s.resolve p).1.cell q = s.cell q) := by
  cases p with
  | obj r => exact ⟨hp, rfl, le_refl _, fun _ _ => rfl⟩
  | fresh m =>
    refine ⟨⟨by simp [resolve, St.alloc], fun b h => ?_, fun a h => ?_⟩, by simp [resolve, St.alloc, ParamArg.value],
      by simp [resolve, St.alloc], fun q hq => ?_⟩
    · have := hs.exch b _ h; simp [resolve, St.alloc] at this
    · have := hs.site a _ h; simp [resolve, St.alloc] at this
    · have : q ≠ s.next := by omega
      simp [resolve, St.alloc, this]

theorem resolve_inv2 {s : St K} (hs : s.Inv2) {p : ParamArg K} (hp : s.Unshared p) : (s.resolve p).1.Inv2 := by
  have ht := resolve_toHam s p
  have hsp := resolve_spec hs.alloc hp
  have e1 : (s.resolve p).1.exch = s.exch := congrArg Ham.exch ht
  have e2 : (s.resolve p).1.onSite = s.onSite := congrArg Ham.onSite ht
  exact hs.of_same (hs.inv.congr ht) (by rw [e1]; exact fun _ _ h => h) (by rw [e2]; exact fun _ _ h => h) hsp.2.2.1
    (fun b q h => hsp.2.2.2 q (hs.alloc.exch b q h))

theorem findOrAdd_matches {s s' : St K} {x : AtomArg} {a : Atom} (h : s.findOrAdd x = .ok (s', a)) :
    x.Matches a := by
  unfold findOrAdd at h
  cases x with
  | atom b =>
    simp only [Except.ok.injEq, Prod.mk.injEq] at h
    exact h.2.symm
  | name n =>
    cases hg : s.getAtom n with
    | error e => simp [hg, Except.map] at h
    | ok b =>
      simp only [hg, Except.map, Except.ok.injEq, Prod.mk.injEq] at h
      obtain ⟨_, rfl⟩ := h
      unfold getAtom at hg
      split at hg
      · next c hc =>
        cases hg
        have : b ∈ s.atoms.filter (fun a => a.name == n || a.fullname == n) := by rw [hc]; simp
        have := List.of_mem_filter this
        simpa [AtomArg.Matches] using this
      · cases hg

theorem inv2_addAtoms {s : St K} (hs : s.Inv2) (l : List Atom) : ({ s with atoms := s.atoms ++ l } : St K).Inv2 :=
  ⟨inv_addAtoms hs.inv l, ⟨hs.alloc.exch, hs.alloc.site⟩, ⟨hs.noShare.exch, hs.noShare.site, hs.noShare.cross⟩, hs.cons⟩

theorem addExchange_inv2 {s : St K} (hs : s.Inv2) {x y : AtomArg} {R : Cell} {p : ParamArg K}
    (hg : s.GoodAdd x y R p) : (s.addExchange x y R p).st.Inv2 := by
  have hinv := addExchange_inv hs.inv x y R p
  unfold addExchange at hinv ⊢
  cases h1 : s.findOrAdd x with
  | error e => exact hs
  | ok q =>
    obtain ⟨s1, a⟩ := q
    have hxa := findOrAdd_matches h1
    obtain ⟨ha, l, rfl⟩ := findOrAdd_spec h1
    have hs1 := inv2_addAtoms hs l
    simp only [h1] at hinv ⊢
    cases h2 : ({ s with atoms := s.atoms ++ l } : St K).findOrAdd y with
    | error e => exact hs1
    | ok q =>
      obtain ⟨s2, b⟩ := q
      have hyb := findOrAdd_matches h2
      obtain ⟨hb, l', rfl⟩ := findOrAdd_spec h2
      have hs2 := inv2_addAtoms hs1 l'
      simp only [h2, Res.st_ok] at hinv ⊢
      generalize hs2' : ({ s with atoms := s.atoms ++ l ++ l' } : St K) = t at *
      have hval : p.value t = p.value s := by subst hs2'; cases p <;> rfl
      have hvE : ∀ c, t.valE c = s.valE c := by subst hs2'; intro c; rfl
      have hu : t.Unshared p := by
        subst hs2'
        have := hg.1
        cases p <;> exact this
      have hr := resolve_spec hs2.alloc hu
      have hs3 := resolve_inv2 hs2 hu
      have ht := resolve_toHam t p
      have hv3 : ∀ c, (t.resolve p).1.valE c = s.valE c := by
        intro c
        rw [← hvE c]
        unfold valE
        rw [show (t.resolve p).1.exch = t.exch from congrArg Ham.exch ht]
        cases hgq : t.exch.get? c with
        | none => rfl
        | some q => simp [hr.2.2.2 q (hs2.alloc.exch c q hgq)]
      have hgg := hg.2 a b hxa hyb
      refine ⟨hinv, putBond_alloc hs3.alloc _ hr.1.1, putBond_noShare hs3.alloc hs3.noShare _ hr.1,
        putBond_cons hs3.alloc hs3.cons _ hr.1.1 ?_ ?_⟩
      · intro m' hm' hne
        rw [hv3] at hm'
        rw [hr.2.1, hval]
        exact hgg.2 m' hm' hne
      · intro hself
        rw [hr.2.1, hval]
        exact hgg.1 hself

theorem addOnSite_inv2 {s : St K} (hs : s.Inv2) {x : AtomArg} {p : ParamArg K}
    (hg : s.Unshared p) : (s.addOnSite x p).st.Inv2 := by
  have hinv := addOnSite_inv hs.inv x p
  unfold addOnSite at hinv ⊢
  cases h1 : s.findOrAdd x with
  | error e => exact hs
  | ok q =>
    obtain ⟨s1, a⟩ := q
    obtain ⟨ha, l, rfl⟩ := findOrAdd_spec h1
    have hs2 := inv2_addAtoms hs l
    simp only [h1, Res.st_ok] at hinv ⊢
    generalize hs2' : ({ s with atoms := s.atoms ++ l } : St K) = t at *
    have hu : t.Unshared p := by
      subst hs2'
      cases p <;> exact hg
    have hr := resolve_spec hs2.alloc hu
    have hs3 := resolve_inv2 hs2 hu
    refine ⟨hinv, ⟨hs3.alloc.exch, fun c q h => ?_⟩, ⟨hs3.noShare.exch, fun c c' q h h' => ?_, fun b c q h h' => ?_⟩, hs3.cons⟩
    · simp only [get?_set] at h
      split_ifs at h with hc
      · simp only [Option.some.injEq] at h; rw [← h]; exact hr.1.1
      · exact hs3.alloc.site c q h
    · simp only [get?_set] at h h'
      split_ifs at h h' with hc hc'
      · rw [← hc, ← hc']
      · simp only [Option.some.injEq] at h
        rw [← h] at h'; exact absurd h' (hr.1.2.2 _)
      · simp only [Option.some.injEq] at h'
        rw [← h'] at h; exact absurd h (hr.1.2.2 _)
      · exact hs3.noShare.site _ _ _ h h'
    · simp only [get?_set] at h'
      split_ifs at h' with hc
      · simp only [Option.some.injEq] at h'
        rw [← h'] at h; exact hr.1.2.1 _ h
      · exact hs3.noShare.cross _ _ _ h h'

theorem get?_of_sublist {α β : Type*} [DecidableEq α] {d e : PyDict α β} (h : d.Sublist e) (he : e.keys.Nodup)
    {k : α} {v : β} (hk : d.get? k = some v) : e.get? k = some v :=
  get?_of_mem he (h.subset (mem_of_get? hk))

theorem delEntry_sublist (k : Bond ⊕ Atom) (s : St K) :
    (delEntry k s).st.exch.Sublist s.exch ∧ (delEntry k s).st.onSite.Sublist s.onSite ∧
      (delEntry k s).st.toMem = s.toMem := by
  cases k with
  | inl b =>
    have e : delEntry (.inl b) s = s.dropBond b true := rfl
    rw [e]
    have hf := dropBond_frame s b true
    have e2 : (s.dropBond b true).st.onSite = s.onSite := (congrArg Ham.onSite hf.2 :)
    refine ⟨?_, by rw [e2], hf.1⟩
    unfold dropBond
    dsimp only
    split_ifs
    · exact List.Sublist.refl _
    · exact (del_sublist _ _).trans (del_sublist _ _)
    · exact del_sublist _ _
  | inr a =>
    simp only [delEntry, delItem, removeOnSite]
    split_ifs
    · exact ⟨List.Sublist.refl _, List.Sublist.refl _, rfl⟩
    · exact ⟨List.Sublist.refl _, del_sublist _ _, rfl⟩

/-- Operations that only delete entries preserve the invariant. -/
theorem Inv2.of_sub {s t : St K} (hs : s.Inv2) (hi : t.Inv) (h1 : t.exch.Sublist s.exch)
    (h2 : t.onSite.Sublist s.onSite) (h3 : t.toMem = s.toMem) : t.Inv2 :=
  hs.of_same hi (fun _ _ h => get?_of_sublist h1 hs.inv.nodup.exch h)
    (fun _ _ h => get?_of_sublist h2 hs.inv.nodup.site h) (by rw [h3]) (fun _ _ _ => by rw [h3])

theorem removeExchange_inv2 {s : St K} (hs : s.Inv2) (x y : AtomArg) (R : Cell) (f : Bool) :
    (s.removeExchange x y R f).st.Inv2 := by
  have hinv := removeExchange_inv hs.inv x y R f
  unfold removeExchange at hinv ⊢
  cases ha : s.find x with
  | error e => exact hs
  | ok a =>
    cases hb : s.find y with
    | error e => exact hs
    | ok b =>
      simp only [ha, hb] at hinv ⊢
      refine hs.of_sub hinv ?_ ?_ (dropBond_frame _ _ _).1
      · unfold dropBond
        dsimp only
        split_ifs
        · exact List.Sublist.refl _
        · exact (del_sublist _ _).trans (del_sublist _ _)
        · exact del_sublist _ _
      · rw [show (s.dropBond (a, b, R) f).st.onSite = s.onSite from (congrArg Ham.onSite (dropBond_frame s (a, b, R) f).2 :)]

theorem removeOnSite_inv2 {s : St K} (hs : s.Inv2) (x : AtomArg) (f : Bool) : (s.removeOnSite x f).st.Inv2 := by
  refine hs.of_sub (removeOnSite_inv hs.inv x f) ?_ ?_ ?_ <;>
  · unfold removeOnSite
    split
    · split
      · first | exact List.Sublist.refl _ | rfl
      · split_ifs <;> first | exact List.Sublist.refl _ | rfl
    · split_ifs <;> first | exact List.Sublist.refl _ | rfl | exact del_sublist _ _

theorem delEntry_inv2 {s : St K} (hs : s.Inv2) (k : Bond ⊕ Atom) : (delEntry k s).st.Inv2 :=
  have h := delEntry_sublist k s
  hs.of_sub (delEntry_inv hs.inv k) h.1 h.2.1 h.2.2

theorem filter_inv2 [LinearOrder K] {s : St K} (hs : s.Inv2) (a b : Option K) (c : Option (M3 K → Bool))
    (o : List (Bond ⊕ Atom) → List (Bond ⊕ Atom)) : (s.filter a b c o).st.Inv2 := by
  refine forEach_inv (P := Inv2) (fun k t ht => ?_) _ _ hs
  unfold catchKeyError
  split_ifs <;> exact delEntry_inv2 ht k

theorem removeAtom_inv2 {s : St K} (hs : s.Inv2) (x : AtomArg) : (s.removeAtom x).st.Inv2 := by
  have hinv := removeAtom_inv hs.inv x
  unfold removeAtom at hinv ⊢
  cases hx : s.find x with
  | error e => exact hs
  | ok a =>
    simp only [hx] at hinv ⊢
    generalize (((s.exch.keys.filter fun b => b.1 = a ∨ b.2.1 = a).map Sum.inl) ++
      (if s.onSite.get? a ≠ none then [Sum.inr a] else []) : List (Bond ⊕ Atom)) = ks at *
    have h2 : (forEach ks delEntry s).st.Inv2 := forEach_inv (P := Inv2) (fun k t ht => delEntry_inv2 ht k) _ _ hs
    unfold Res.andThen at hinv ⊢
    cases he : (forEach ks delEntry s).err with
    | some e => exact h2
    | none =>
      simp only [he] at hinv ⊢
      split_ifs at hinv ⊢
      · exact ⟨hinv, ⟨h2.alloc.exch, h2.alloc.site⟩, ⟨h2.noShare.exch, h2.noShare.site, h2.noShare.cross⟩, h2.cons⟩
      · exact h2

/-! ### Notation setters -/

theorem Cons.scale {s t : St K} (hs : s.Cons) (x : Bond → K) (hx : ∀ b, x b.mirror = x b)
    (h : ∀ b, t.valE b = (s.valE b).map fun m => x b • m) : t.Cons := by
  intro b m m' hm hm'
  rw [h] at hm hm'
  rw [Option.map_eq_some_iff] at hm hm'
  obtain ⟨n, hn, rfl⟩ := hm
  obtain ⟨n', hn', rfl⟩ := hm'
  rw [hs b n n' hn hn', hx]
  rfl

theorem foldl_wr_exch_inv2 {s : St K} (hs : s.Inv2) (x : Bond → K) (hx : ∀ b, x b.mirror = x b) :
    (s.exch.foldl (wr x) s).Inv2 := by
  have hf := foldl_wr_frame x s.exch s
  exact ⟨hs.inv.congr hf.1, hs.alloc.congr hf.1 hf.2, hs.noShare.congr hf.1,
    hs.cons.scale x hx (foldl_wr_exch hs.inv.nodup hs.noShare x).1⟩

theorem foldl_wr_site_inv2 {s : St K} (hs : s.Inv2) (x : Atom → K) : (s.onSite.foldl (wr x) s).Inv2 := by
  have hf := foldl_wr_frame x s.onSite s
  refine ⟨hs.inv.congr hf.1, hs.alloc.congr hf.1 hf.2, hs.noShare.congr hf.1, ?_⟩
  have := (foldl_wr_site hs.inv.nodup hs.noShare x).2
  intro b m m' h h'
  rw [this] at h h'
  exact hs.cons b m m' h h'

theorem scaleExch_err_first {s : St K} (e : PyErr) (c : Bond → St K → Except PyErr K)
    (hc : ∀ b t, c b t = .error e) : (scaleExch c s).st = s := by
  unfold scaleExch
  cases hk : s.exch.keys with
  | nil => rfl
  | cons b l =>
    have : b ∈ s.exch.keys := by rw [hk]; simp
    obtain ⟨r, hr⟩ := mem_keys_iff.1 this
    simp [forEach, imulBond, hr, hc, Res.andThen, Res.raise]

theorem scaleSite_err_first {s : St K} (e : PyErr) (c : Atom → St K → Except PyErr K)
    (hc : ∀ b t, c b t = .error e) : (scaleSite c s).st = s := by
  unfold scaleSite
  cases hk : s.onSite.keys with
  | nil => rfl
  | cons b l =>
    have : b ∈ s.onSite.keys := by rw [hk]; simp
    obtain ⟨r, hr⟩ := mem_keys_iff.1 this
    simp [forEach, imulSite, hr, hc, Res.andThen, Res.raise]

theorem inv2_flags {s : St K} (hs : s.Inv2) (sn : Option Bool) (ef osf : Option K) :
    ({ s with sn := sn, ef := ef, osf := osf } : St K).Inv2 :=
  ⟨⟨⟨hs.inv.nodup.exch, hs.inv.nodup.site⟩, ⟨hs.inv.refer.exch, hs.inv.refer.site⟩, hs.inv.closed⟩,
    ⟨hs.alloc.exch, hs.alloc.site⟩, ⟨hs.noShare.exch, hs.noShare.site, hs.noShare.cross⟩, hs.cons⟩

theorem setEF_inv2 [DecidableEq K] {s : St K} (hs : s.Inv2) (x : K) : (s.setEF x).st.Inv2 := by
  unfold setEF
  refine Res.andThen_inv (P := Inv2) ?_ (fun t ht => inv2_flags ht t.sn (some x) t.osf)
  split
  · next old _ =>
    split_ifs
    · by_cases hx : x = 0
      · rw [scaleExch_err_first .zeroDivision _ (fun _ _ => by simp [ratio, hx])]
        exact hs
      · rw [scaleExch_ok hs.inv.nodup.exch (fun _ => old / x) (fun _ _ _ _ => by simp [ratio, hx])]
        exact foldl_wr_exch_inv2 hs _ (fun _ => rfl)
    · exact hs
  · exact hs

theorem setOF_inv2 [DecidableEq K] {s : St K} (hs : s.Inv2) (x : K) : (s.setOF x).st.Inv2 := by
  unfold setOF
  refine Res.andThen_inv (P := Inv2) ?_ (fun t ht => inv2_flags ht t.sn t.ef (some x))
  split
  · next old _ =>
    split_ifs
    · by_cases hx : x = 0
      · rw [scaleSite_err_first .zeroDivision _ (fun _ _ => by simp [ratio, hx])]
        exact hs
      · rw [scaleSite_ok hs.inv.nodup.site (fun _ => old / x) (fun _ _ _ _ => by simp [ratio, hx])]
        exact foldl_wr_site_inv2 hs _
    · exact hs
  · exact hs

theorem spinProd_ok {s : St K} {sp : Atom → K} (h : ∀ a, s.spin a = some (sp a)) (a b : Atom) :
    s.spinProd a b = .ok (sp a * sp b) := by
  simp [spinProd, spinOf, h]

theorem setSN_inv2 {s : St K} (hs : s.Inv2) {sp : Atom → K} (hsp : ∀ a, s.spin a = some (sp a)) (new : Bool) :
    (s.setSN new).st.Inv2 := by
  unfold setSN
  refine Res.andThen_inv (P := Inv2) ?_ (fun t ht => inv2_flags ht (some new) t.ef t.osf)
  have hspin : ∀ t : St K, t.toHam = s.toHam → ∀ a, t.spin a = some (sp a) := fun t ht a => by
    rw [show t.spin = s.spin from congrArg Ham.spin ht]; exact hsp a
  split_ifs
  · rw [scaleExch_ok hs.inv.nodup.exch (fun b => (sp b.1 * sp b.2.1)⁻¹)
      (fun b _ t ht => by rw [spinProd_ok (hspin t ht)]; rfl), Res.ok_andThen]
    have h1 := foldl_wr_exch_inv2 hs (fun b => (sp b.1 * sp b.2.1)⁻¹) (fun b => by simp [Bond.mirror, mul_comm])
    have hf := (foldl_wr_frame (fun b : Bond => (sp b.1 * sp b.2.1)⁻¹) s.exch s).1
    rw [scaleSite_ok h1.inv.nodup.site (fun a => (sp a * sp a)⁻¹)
      (fun b _ t ht => by rw [spinProd_ok (hspin t (ht.trans hf))]; rfl)]
    exact foldl_wr_site_inv2 h1 _
  · rw [scaleExch_ok hs.inv.nodup.exch (fun b => (sp b.1 * sp b.2.1))
      (fun b _ t ht => by rw [spinProd_ok (hspin t ht)]), Res.ok_andThen]
    have h1 := foldl_wr_exch_inv2 hs (fun b => (sp b.1 * sp b.2.1)) (fun b => by simp [Bond.mirror, mul_comm])
    have hf := (foldl_wr_frame (fun b : Bond => (sp b.1 * sp b.2.1)) s.exch s).1
    rw [scaleSite_ok h1.inv.nodup.site (fun a => (sp a * sp a))
      (fun b _ t ht => by rw [spinProd_ok (hspin t (ht.trans hf))])]
    exact foldl_wr_site_inv2 h1 _
  · exact hs

theorem dcScaled_valE {s : St K} (hk : s.KeysNodup) (hs : s.NoShare) (new : Bool) :
    (∀ b, (s.dcScaled new).valE b = (s.valE b).map fun m => (dcFactor s.dc new : K) • m) ∧
      ∀ a, (s.dcScaled new).valO a = s.valO a := by
  have hk1 : ({ s with dc := some new } : St K).KeysNodup := ⟨hk.exch, hk.site⟩
  have hs1 : ({ s with dc := some new } : St K).NoShare := ⟨hs.exch, hs.site, hs.cross⟩
  unfold dcScaled
  simp only
  split_ifs with h
  · have := foldl_wr_exch hk1 hs1 (fun _ => dcFactor s.dc new)
    exact ⟨fun b => this.1 b, fun a => this.2 a⟩
  · have : (dcFactor s.dc new : K) = 1 := by
      rw [not_or] at h
      simp only [dcFactor, h.1, h.2, if_false]
    refine ⟨fun b => ?_, fun _ => rfl⟩
    rw [this]
    simp only [one_smul, Option.map_id_fun', id]
    rfl

theorem ensuredDC_cons {s : St K} (hk : s.KeysNodup) (ha : s.Alloc) (hc : s.Cons) : s.ensuredDC.Cons := by
  have hTT : ∀ x : M3 K, Param.T (Param.T x) = x := fun x => Matrix.transpose_transpose x
  intro b m m' h h'
  change _ = Param.T _
  rw [ensuredDC_valE hk ha] at h h'
  rw [Bond.mirror_mirror] at h'
  cases h1 : s.valE b with
  | none =>
    cases h2 : s.valE b.mirror with
    | none => simp [h1, h2] at h
    | some n' =>
      simp [h1, h2] at h h'
      rw [← h, ← h', hTT]
  | some n =>
    cases h2 : s.valE b.mirror with
    | none =>
      simp [h1, h2] at h h'
      rw [← h, ← h']
    | some n' =>
      simp [h1, h2] at h h'
      rw [← h, ← h', show n' = Param.T n from hc b n n' h1 h2, hTT]

theorem setDC_inv2 {s : St K} (hs : s.Inv2) (new : Bool) : (s.setDC new).st.Inv2 := by
  have hinv := setDC_inv hs.inv new
  rw [setDC_eq hs.inv.nodup] at hinv ⊢
  have hf := dcScaled_toHam s new
  have hk1 : ({ s with dc := some new } : St K).KeysNodup := ⟨hs.inv.nodup.exch, hs.inv.nodup.site⟩
  have hr1 : ({ s with dc := some new } : St K).Refer := ⟨hs.inv.refer.exch, hs.inv.refer.site⟩
  have hk : (s.dcScaled new).KeysNodup := hk1.congr hf.1
  have hr : (s.dcScaled new).Refer := hr1.congr hf.1
  have ha : (s.dcScaled new).Alloc := Alloc.congr (s := { s with dc := some new }) hf.1 hf.2 ⟨hs.alloc.exch, hs.alloc.site⟩
  have hn : (s.dcScaled new).NoShare := NoShare.congr (s := { s with dc := some new }) hf.1 ⟨hs.noShare.exch, hs.noShare.site, hs.noShare.cross⟩
  have hc : (s.dcScaled new).Cons :=
    hs.cons.scale (fun _ => dcFactor s.dc new) (fun _ => rfl) (dcScaled_valE hs.inv.nodup hs.noShare new).1
  cases new with
  | true =>
    simp only [if_true] at hinv ⊢
    rw [ensureDC_eq hr] at hinv ⊢
    exact ⟨hinv, ensuredDC_alloc hk ha, ensuredDC_noShare hk ha hn, ensuredDC_cons hk ha hc⟩
  | false =>
    simp only [Bool.false_eq_true, if_false] at hinv ⊢
    cases hcr : (s.dcScaled false).collectRemovals (s.dcScaled false).exch.keys with
    | error e =>
      have : ensureNoDC (s.dcScaled false) = .raise (s.dcScaled false) e := by
        unfold ensureNoDC; rw [hcr]
      rw [this] at hinv ⊢
      exact ⟨hinv, ha, hn, hc⟩
    | ok rem =>
      have hd : (s.dcScaled false).dc = some false := congrArg Ham.dc hf.1
      have hne : (s.dcScaled false).dc ≠ some true := by rw [hd]; simp
      rw [ensureNoDC_eq hne hcr] at hinv ⊢
      have h3 := ensuredNoDC_inv hk rem
      refine ⟨hinv, h3.2.1 ha, h3.2.2.1 hn, ?_⟩
      intro b m m' h h'
      simp only [Res.st_ok] at h h'
      rw [ensuredNoDC_valE hk hcr] at h h'
      split_ifs at h h'
      exact hc b m m' h h'

end St
end Magnopy
