import Verif.Spec.Tb2j
import Verif.Props.TxtLoad
import Mathlib.Tactic.FieldSimp
import Mathlib.Tactic.Ring

/-!
# Lemmas: reading a TB2J file
-/

set_option autoImplicit false
set_option linter.unusedSectionVars false

namespace Magnopy
namespace Tb2j

open Txt

theorem has_iff (p l : Str) : has p l = true ↔ p <:+: l := by
  induction l with
  | nil => simp [has, List.isPrefixOf_iff_prefix]
  | cons c s ih => rw [has, Bool.or_eq_true, ih, List.infix_cons_iff, List.isPrefixOf_iff_prefix]

theorem has_true {p l : Str} (h : p <:+: l) : has p l = true := (has_iff p l).2 h

theorem has_false {p l : Str} (h : ¬ p <:+: l) : has p l = false := by
  rw [← Bool.not_eq_true, has_iff]
  exact h

theorem clean_bare (l : Str) : clean l = bare l := by
  refine List.filter_congr fun c _ => ?_
  have : Str.lit "()[],'" = ['(', ')', '[', ']', ',', '\''] := by decide
  rw [this, Bool.eq_iff_iff]
  simp

theorem mem_true {w : Str} {l : List Str} (h : w ∈ l) : Str.mem w l = true := by
  rw [Str.mem, List.any_eq_true]
  exact ⟨w, h, beq_self_eq_true w⟩

theorem mem_false {w : Str} {l : List Str} (h : w ∉ l) : Str.mem w l = false := by
  rw [← Bool.not_eq_true, Str.mem, List.any_eq_true]
  rintro ⟨x, hx, he⟩
  exact h (by rwa [← eq_of_beq he])

section
variable {K : Type} [Field K] {L : Lib K}

theorem row3_numbers [CharZero K] {ws : List Str} {x y z : K} (h : Numbers L ws [x, y, z]) : row3 L ws = .ok ![x, y, z] := by
  rw [row3, floats_numbers h]

/-! ### One block -/

/-- What the arguments collected so far are. -/
structure Holds (p : Args K) (is : List (Item K)) : Prop where
  iso : p.iso = Item.lastIso is
  aniso : p.aniso = Item.lastAniso is
  dmi : p.dmi = (Item.lastDmi is).map fun d => [d 0, d 1, d 2]

theorem holds_nil : Holds ({} : Args K) [] := ⟨rfl, rfl, rfl⟩

theorem Holds.iso' {p : Args K} {is : List (Item K)} (h : Holds p is) (j : K) : Holds { p with iso := some j } (is ++ [.iso j]) :=
  ⟨by simp [Item.lastIso], by simp [Item.lastAniso, h.aniso], by simp [Item.lastDmi, h.dmi]⟩

theorem Holds.aniso' {p : Args K} {is : List (Item K)} (h : Holds p is) (m : M3 K) :
    Holds { p with aniso := some m } (is ++ [.aniso m]) :=
  ⟨by simp [Item.lastIso, h.iso], by simp [Item.lastAniso], by simp [Item.lastDmi, h.dmi]⟩

theorem Holds.dmi' {p : Args K} {is : List (Item K)} (h : Holds p is) (x y z : K) :
    Holds { p with dmi := some [x, y, z] } (is ++ [.dmi ![x, y, z]]) :=
  ⟨by simp [Item.lastIso, h.iso], by simp [Item.lastAniso, h.aniso], by simp [Item.lastDmi]⟩

theorem isoStep_no {l : Str} (h : ¬ Mentions "J_iso:" l) (p : Args K) : isoStep L l p = .ok p := by
  have := has_false h
  rw [isoStep, isoFlag, Str.lit, this]
  rfl

theorem dmiStep_no {l : Str} (h : ¬ Mentions "DMI:" l) (p : Args K) : dmiStep L l p = .ok p := by
  have := has_false h
  rw [dmiStep, dmiFlag, Str.lit, this]
  rfl

theorem block_says [CharZero K] {ls : List Str} {is : List (Item K)} (h : Says L ls is) {rest : List Str} (p : Args K) (pre : List (Item K))
    (hp : Holds p pre) : ∃ p', Holds p' (pre ++ is) ∧ block L (ls ++ rest) p = block L rest p' := by
  induction h generalizing p pre with
  | nil => exact ⟨p, by simpa using hp, rfl⟩
  | @other l ls is h1 h2 h3 h4 _ ih =>
    obtain ⟨p', e1, e2⟩ := ih p pre hp
    refine ⟨p', e1, ?_⟩
    rw [← e2, List.cons_append]
    conv_lhs => rw [block.eq_def]
    have a1 : has anisoFlag l = false := has_false h2
    have a2 : has minorSep l = false := has_false h4
    simp only [isoStep_no h1, a1, dmiStep_no h3, a2, Bool.false_eq_true, if_false]
  | @iso l w ws j ls is h1 h2 h3 h4 h5 h6 _ ih =>
    obtain ⟨p', e1, e2⟩ := ih { p with iso := some j } (pre ++ [.iso j]) (hp.iso' j)
    refine ⟨p', by simpa using e1, ?_⟩
    rw [← e2, List.cons_append]
    conv_lhs => rw [block.eq_def]
    have a1 : has anisoFlag l = false := has_false h2
    have a2 : has minorSep l = false := has_false h4
    have a3 : isoStep L l p = .ok { p with iso := some j } := by
      have : has isoFlag l = true := has_true h1
      rw [isoStep, if_pos this, h5, List.getLastD_concat, parse, h6]
      rfl
    simp only [a3, a1, dmiStep_no h3, a2, Bool.false_eq_true, if_false]
  | @aniso l a b c x1 y1 z1 x2 y2 z2 x3 y3 z3 ls is h1 h2 h3 h4 h5 h6 h7 _ ih =>
    obtain ⟨p', e1, e2⟩ := ih { p with aniso := some !![x1, y1, z1; x2, y2, z2; x3, y3, z3] } _ (hp.aniso' _)
    refine ⟨p', by simpa using e1, ?_⟩
    rw [← e2, List.cons_append, List.cons_append, List.cons_append, List.cons_append]
    conv_lhs => rw [block.eq_def]
    have a1 : has anisoFlag l = true := has_true h2
    have a2 : has minorSep l = false := has_false h4
    simp only [isoStep_no h1, a1, dmiStep_no h3, a2, Bool.false_eq_true, if_false, if_true, clean_bare, row3_numbers h5,
      row3_numbers h6, row3_numbers h7]
    rfl
  | @dmi l ws vs x y z ls is h1 h2 h3 h4 h5 h6 _ ih =>
    obtain ⟨p', e1, e2⟩ := ih { p with dmi := some [x, y, z] } _ (hp.dmi' x y z)
    refine ⟨p', by simpa using e1, ?_⟩
    rw [← e2, List.cons_append]
    conv_lhs => rw [block.eq_def]
    have a1 : has anisoFlag l = false := has_false h2
    have a2 : has minorSep l = false := has_false h4
    have a3 : dmiStep L l p = .ok { p with dmi := some [x, y, z] } := by
      have : has dmiFlag l = true := has_true h3
      have hl : vs.length = 3 := h6.length_eq
      rw [dmiStep, if_pos this, clean_bare, h5, List.length_append, hl, Nat.add_sub_cancel, List.drop_left, floats_numbers h6]
      rfl
    simp only [isoStep_no h1, a1, a3, a2, Bool.false_eq_true, if_false]

theorem block_end {p : Args K} : block L [] p = .ok (p, false, []) := by rw [block.eq_def]

theorem block_sep {l : Str} (h : Divides l) {rest : List Str} {p : Args K} : block L (l :: rest) p = .ok (p, true, rest) := by
  rw [block.eq_def]
  have a1 : has anisoFlag l = false := has_false h.2.2.1
  have a2 : has minorSep l = true := has_true h.1
  simp only [isoStep_no h.2.1, a1, dmiStep_no h.2.2.2, a2, Bool.false_eq_true, if_false, if_true]

/-! ### One bond -/

theorem init_matrix [CharZero K] {p : Args K} {is : List (Item K)} (h : Holds p is) :
    Param.init none p.iso (p.aniso.map rowsOf) (p.dmi.map .vector) = .ok (Item.matrix is) := by
  have e1 : ∀ m : M3 K, (rowsOf m).toM3 = .ok m := toM3_rowsOf
  have h2 : (2 : K) ≠ 0 := two_ne_zero
  have h3 : (3 : K) ≠ 0 := three_ne_zero
  obtain ⟨j, hj⟩ : ∃ j : M3 K, j = Param.setIso 0 ((Item.lastIso is).getD 0) := ⟨_, rfl⟩
  have hj' : j = (Item.lastIso is).getD 0 • (1 : M3 K) := by
    rw [hj]
    ext a b
    fin_cases a <;> fin_cases b <;> simp [Param.setIso, Param.iso, Param.symmMatrix, Param.eye]
  have s1 : (Param.ifGiven none Param.assignMatrix (0 : M3 K)).andThen (Param.ifGiven p.iso fun m v => .ok (Param.setIso m v)) =
      .ok j := by
    rw [h.iso, hj]
    cases Item.lastIso is with
    | none =>
      show Res.ok (0 : M3 K) = _
      congr 1
      ext a b
      fin_cases a <;> fin_cases b <;> simp [Param.setIso, Param.iso, Param.symmMatrix, Param.eye]
    | some v => rfl
  obtain ⟨d, hd⟩ : ∃ d : V3 K, d = (Item.lastDmi is).getD 0 := ⟨_, rfl⟩
  have s2 : Param.ifGiven (p.dmi.map .vector) Param.assignDmi j = .ok (j + !![0, d 2, -d 1; -d 2, 0, d 0; d 1, -d 0, 0]) := by
    rw [h.dmi, hd]
    cases Item.lastDmi is with
    | none =>
      show Res.ok j = _
      congr 1
      ext a b
      fin_cases a <;> fin_cases b <;> simp
    | some v =>
      show Res.ok (Param.setDmi j ![v 0, v 1, v 2]) = _
      congr 1
      rw [hj']
      ext a b
      fin_cases a <;> fin_cases b <;>
        simp [Param.setDmi, Param.dmiArray, Param.dmi, Param.asymmMatrix]
  have s3 : Param.ifGiven (p.aniso.map rowsOf) Param.assignAniso (j + !![0, d 2, -d 1; -d 2, 0, d 0; d 1, -d 0, 0]) =
      .ok (j + (Item.lastAniso is).getD 0 + !![0, d 2, -d 1; -d 2, 0, d 0; d 1, -d 0, 0]) := by
    rw [h.aniso]
    cases Item.lastAniso is with
    | none =>
      show Res.ok _ = _
      congr 1
      rw [Option.getD_none, add_zero]
    | some A =>
      show Param.assignAniso _ (rowsOf A) = _
      rw [Param.assignAniso, e1]
      show Res.ok _ = _
      congr 1
      have : Param.aniso (j + !![0, d 2, -d 1; -d 2, 0, d 0; d 1, -d 0, 0]) = 0 := by
        rw [hj']
        ext a b
        fin_cases a <;> fin_cases b <;> simp [Param.aniso, Param.iso, Param.symmMatrix, Param.eye] <;> field_simp <;> ring
      rw [Param.setAniso, this, sub_zero, Option.getD_some]
      abel
  rw [Param.init, s1]
  show ((Param.ifGiven (p.dmi.map .vector) Param.assignDmi j).andThen _) = _
  rw [s2]
  show Param.ifGiven (p.aniso.map rowsOf) Param.assignAniso (j + !![0, d 2, -d 1; -d 2, 0, d 0; d 1, -d 0, 0]) = _
  rw [s3, hj', hd]
  rfl

theorem add_read [CharZero K] {s : St K} (ha : s.Alloc) {e : Entry K} {A B : Atom}
    (h1 : s.getAtom (String.ofList e.name1) = .ok A) (h2 : s.getAtom (String.ofList e.name2) = .ok B) {p : Args K}
    (hp : Holds p e.items) : ∃ t, add e.name1 e.name2 [e.R.1, e.R.2.1, e.R.2.2] p s = .ok t ∧ t.Alloc ∧
      BondRead s t (A, B, e.R) (Item.matrix e.items) (Item.matrix e.items) := by
  obtain ⟨h3, h4⟩ := put_read ha (A, B, e.R) (Item.matrix e.items)
  refine ⟨_, ?_, h4, h3⟩
  rw [add, addParts]
  have : Param.init ((none : Option (M3 K)).map rowsOf) p.iso (p.aniso.map rowsOf) (p.dmi.map .vector) = .ok (Item.matrix e.items) :=
    init_matrix hp
  simp only [this]
  show (St.addExchange _ _ e.R _ s).toExcept = _
  rw [addExchange_name h1 h2]
  rfl

theorem header_read {h : Str} {e : Entry K} (hh : Header L h e) : ∃ ws d, (clean h).split = e.name1 :: e.name2 :: ws ∧
    ints L (ws.take 3) = .ok [e.R.1, e.R.2.1, e.R.2.2] ∧ parse L ((e.name1 :: e.name2 :: ws).getLastD []) = .ok d ∧
    Str.mem minorSep (e.name1 :: e.name2 :: ws) = false := by
  obtain ⟨i, j, k, ws, w, h1, h2, h3, h4, h5, h6, h7⟩ := hh
  obtain ⟨d, hd⟩ := Option.isSome_iff_exists.1 h6
  refine ⟨i :: j :: k :: ws, d, by rw [clean_bare, h1], ?_, ?_, mem_false (h1 ▸ h7)⟩
  · simp [ints, parseInt, h2, h3, h4]
  · have : (e.name1 :: e.name2 :: i :: j :: k :: ws).getLastD [] = w := by
      rw [List.getLastD_eq_getLast?]
      simp only [List.getLast?_cons_cons, h5, Option.getD_some]
    rw [this, parse, hd]

/-! ### What the list of bonds says -/

theorem opposite_opposite (k : NameKey) : opposite (opposite k) = k := by
  obtain ⟨a, b, i, j, l⟩ := k
  simp [opposite]

theorem final_nil (k : NameKey) : final ([] : List (Entry K)) k = none := rfl

theorem final_self (es : List (Entry K)) (e : Entry K) : final (es ++ [e]) e.key = some (Item.matrix e.items) := by
  rw [final, List.filter_append]
  simp

theorem final_other (es : List (Entry K)) (e : Entry K) {k : NameKey} (h1 : e.key ≠ k) (h2 : e.key ≠ opposite k) :
    final (es ++ [e]) k = final es k := by
  rw [final, final, List.filter_append, List.filter_append]
  simp [h1, h2]

theorem final_opposite (es : List (Entry K)) (e : Entry K) (h : opposite e.key ≠ e.key) : final (es ++ [e]) (opposite e.key) =
    if final es (opposite e.key) = none then some (Item.matrix e.items).transpose else final es (opposite e.key) := by
  rw [final, final, List.filter_append, List.filter_append, opposite_opposite]
  have : [e].filter (fun x => decide (x.key = opposite e.key)) = [] := by simp [h.symm]
  rw [this, List.append_nil]
  cases (es.filter fun x => decide (x.key = opposite e.key)).getLast? with
  | some x => simp
  | none =>
    simp only
    cases hh : es.filter fun x => decide (x.key = e.key) with
    | nil => simp
    | cons a l => simp

/-- Key of a bond by the names of its atoms. -/
def keyOf (b : Bond) : NameKey := (b.1.name.toList, b.2.1.name.toList, b.2.2)

theorem keyOf_mirror (b : Bond) : keyOf b.mirror = opposite (keyOf b) := by
  obtain ⟨a, c, i, j, k⟩ := b
  rfl

/-- The Hamiltonian contains what the entries say. -/
structure Agrees (s : St K) (es : List (Entry K)) : Prop where
  inside : ∀ b : Bond, b.1 ∈ s.atoms → b.2.1 ∈ s.atoms → s.valE b = final es (keyOf b)
  outside : ∀ b : Bond, b.1 ∉ s.atoms ∨ b.2.1 ∉ s.atoms → s.valE b = none

theorem name_inj {s : St K} (hn : (s.atoms.map Atom.name).Nodup) {A B : Atom} (hA : A ∈ s.atoms) (hB : B ∈ s.atoms)
    (h : A.name.toList = B.name.toList) : A = B :=
  List.inj_on_of_nodup_map hn hA hB (String.toList_inj.1 h)

theorem keyOf_inj {s : St K} (hn : (s.atoms.map Atom.name).Nodup) {b c : Bond} (h1 : b.1 ∈ s.atoms) (h2 : b.2.1 ∈ s.atoms)
    (h3 : c.1 ∈ s.atoms) (h4 : c.2.1 ∈ s.atoms) (h : keyOf b = keyOf c) : b = c := by
  obtain ⟨A, B, R⟩ := b
  obtain ⟨C, D, Q⟩ := c
  simp only [keyOf, Prod.mk.injEq] at h
  obtain ⟨e1, e2, rfl⟩ := h
  obtain rfl : A = C := name_inj hn h1 h3 e1
  obtain rfl : B = D := name_inj hn h2 h4 e2
  rfl

theorem Agrees.step {s t : St K} {es : List (Entry K)} {e : Entry K} {b : Bond} (h : Agrees s es) (hd : s.dc = some true)
    (hn : (s.atoms.map Atom.name).Nodup) (h1 : b.1 ∈ s.atoms) (h2 : b.2.1 ∈ s.atoms) (hk : keyOf b = e.key)
    (hr : BondRead s t b (Item.matrix e.items) (Item.matrix e.items)) : Agrees t (es ++ [e]) := by
  have m1 : b.mirror.1 ∈ s.atoms := h2
  have m2 : b.mirror.2.1 ∈ s.atoms := h1
  refine ⟨fun c h3 h4 => ?_, fun c hc => ?_⟩
  · rw [hr.atoms] at h3 h4
    by_cases c1 : c = b
    · rw [c1, hr.value, hk, final_self]
    · by_cases c2 : c = b.mirror
      · subst c2
        have hne : opposite e.key ≠ e.key := by
          rw [← hk, ← keyOf_mirror]
          exact fun h => c1 (keyOf_inj hn m1 m2 h1 h2 h)
        rw [hr.mirror c1, h.inside _ m1 m2, keyOf_mirror, hk, final_opposite _ _ hne, hd]
        simp
      · rw [hr.other c c1 c2, h.inside c h3 h4, final_other]
        · rw [← hk]
          exact fun h => c1 (keyOf_inj hn h3 h4 h1 h2 h.symm)
        · intro h
          refine c2 (keyOf_inj hn h3 h4 m1 m2 ?_)
          rw [keyOf_mirror, hk, h, opposite_opposite]
  · rw [hr.atoms] at hc
    have c1 : c ≠ b := by
      rintro rfl
      rcases hc with h | h <;> contradiction
    have c2 : c ≠ b.mirror := by
      rintro rfl
      rcases hc with h | h <;> contradiction
    rw [hr.other c c1 c2, h.outside c hc]

/-- The state while the bonds are read. -/
structure Ready (s : St K) (names : List Str) : Prop where
  alloc : s.Alloc
  dc : s.dc = some true
  nodup : (s.atoms.map Atom.name).Nodup
  find : ∀ w ∈ names, ∃ A, s.getAtom (String.ofList w) = .ok A ∧ A ∈ s.atoms ∧ A.name.toList = w

theorem block_of [CharZero K] {s : St K} {names : List Str} (hs : Ready s names) {pre : List (Entry K)} (ha : Agrees s pre)
    {e : Entry K} (h1 : e.name1 ∈ names) (h2 : e.name2 ∈ names) {p : Args K} (hp : Holds p e.items) :
    ∃ t, add e.name1 e.name2 [e.R.1, e.R.2.1, e.R.2.2] p s = .ok t ∧ Ready t names ∧ Agrees t (pre ++ [e]) ∧
      (∀ a, t.valO a = s.valO a) ∧ (t.dc, t.sn, t.ef, t.osf) = (s.dc, s.sn, s.ef, s.osf) ∧ t.atoms = s.atoms := by
  obtain ⟨A, a1, a2, a3⟩ := hs.find _ h1
  obtain ⟨B, b1, b2, b3⟩ := hs.find _ h2
  obtain ⟨t, t1, t2, t3⟩ := add_read hs.alloc a1 b1 hp
  refine ⟨t, t1, ⟨t2, ?_, ?_, ?_⟩, ha.step hs.dc hs.nodup a2 b2 ?_ t3, t3.onSite, t3.settings, t3.atoms⟩
  · exact (congrArg Prod.fst t3.settings).trans hs.dc
  · rw [t3.atoms]; exact hs.nodup
  · intro w hw
    obtain ⟨A, h⟩ := hs.find w hw
    exact ⟨A, by rwa [getAtom_atoms t3.atoms, t3.atoms]⟩
  · rw [keyOf, Entry.key, a3, b3]

theorem bonds_read [CharZero K] {ls : List Str} {es : List (Entry K)} (h : Blocks L ls es) {names : List Str}
    (hn : ∀ e ∈ es, e.name1 ∈ names ∧ e.name2 ∈ names) (n : ℕ) (hl : es.length ≤ n) (pre : List (Entry K)) (s : St K)
    (hs : Ready s names) (ha : Agrees s pre) : ∃ t, bonds L n ls s = .ok t ∧ Agrees t (pre ++ es) ∧
      (∀ a, t.valO a = s.valO a) ∧ (t.dc, t.sn, t.ef, t.osf) = (s.dc, s.sn, s.ef, s.osf) ∧ t.atoms = s.atoms := by
  induction h generalizing n pre s with
  | @last h ls e hh hsays =>
    obtain ⟨n, rfl⟩ : ∃ m, n = m + 1 := ⟨n - 1, by simp at hl; omega⟩
    obtain ⟨ws, d, e1, e2, e3, e4⟩ := header_read hh
    obtain ⟨p, p1, p2⟩ := block_says hsays (rest := []) {} [] holds_nil
    obtain ⟨t, t1, _, t3, t4, t5, t6⟩ := block_of hs ha (hn e List.mem_cons_self).1 (hn e List.mem_cons_self).2 p1
    refine ⟨t, ?_, t3, t4, t5, t6⟩
    rw [List.append_nil, block_end] at p2
    rw [bonds.eq_def]
    simp only [List.headD_cons, List.tail_cons, e1, e2, e3, e4, p2, t1, Bool.false_eq_true, if_false]
  | @cons h l ls rest e es hh hsays hdiv _ ih =>
    obtain ⟨n, rfl⟩ : ∃ m, n = m + 1 := ⟨n - 1, by simp at hl; omega⟩
    obtain ⟨ws, d, e1, e2, e3, e4⟩ := header_read hh
    obtain ⟨p, p1, p2⟩ := block_says hsays (rest := l :: rest) {} [] holds_nil
    obtain ⟨t, t1, t2, t3, t4, t5, t6⟩ := block_of hs ha (hn e List.mem_cons_self).1 (hn e List.mem_cons_self).2 p1
    obtain ⟨u, u1, u2, u3, u4, u5⟩ := ih (fun x hx => hn x (List.mem_cons_of_mem _ hx)) n (by simpa using hl) _ t t2 t3
    refine ⟨u, ?_, by simpa using u2, fun a => (u3 a).trans (t4 a), u4.trans t5, u5.trans t6⟩
    rw [block_sep hdiv] at p2
    rw [bonds.eq_def]
    simp only [List.headD_cons, List.tail_cons, e1, e2, e3, e4, p2, t1, u1, Bool.false_eq_true, if_false, if_true]

theorem blocks_length {ls : List Str} {es : List (Entry K)} (h : Blocks L ls es) : es.length ≤ ls.length := by
  induction h with
  | last => simp
  | cons _ _ _ _ ih => simp; omega

/-! ### Before the bonds -/

variable [DecidableEq K]

theorem has_cell_no {l : Str} (h : ¬ Mentions "Cell (Angstrom):" l) : has cellFlag l = false := has_false h
theorem has_atoms_no {l : Str} (h : ¬ Mentions "Atoms:" l) : has atomsFlag l = false := has_false h
theorem has_exchange_no {l : Str} (h : ¬ Mentions "Exchange:" l) : has exchangeFlag l = false := has_false h

theorem preamble_quiet {pre : List Str} (hq : ∀ x ∈ pre, Quiet x) (rest : List Str) (n : ℕ) (h : Head K) :
    preamble L (pre.length + n) (pre ++ rest) h = preamble L n rest h := by
  induction pre with
  | nil => simp
  | cons l pre ih =>
    obtain ⟨h1, h2, h3⟩ := hq l List.mem_cons_self
    rw [← ih fun x hx => hq x (List.mem_cons_of_mem _ hx), List.length_cons, Nat.add_right_comm, List.cons_append]
    conv_lhs => rw [preamble.eq_def]
    simp only [cellStep, atomsStep, has_cell_no h1, has_atoms_no h2, has_exchange_no h3, Bool.false_eq_true, if_false, Line.contains]

theorem preamble_cell [CharZero K] {l a b c : Str} {cell : M3 K} (hl : Mentions "Cell (Angstrom):" l) (hl2 : ¬ Mentions "Atoms:" l)
    (hl3 : ¬ Mentions "Exchange:" l) (ha : Numbers L a.split [cell 0 0, cell 0 1, cell 0 2])
    (hb : Numbers L b.split [cell 1 0, cell 1 1, cell 1 2]) (hc : Numbers L c.split [cell 2 0, cell 2 1, cell 2 2])
    (rest : List Str) (n : ℕ) (h : Head K) :
    preamble L (n + 1) (l :: a :: b :: c :: rest) h = preamble L n rest { h with cell := cell } := by
  have e1 : has cellFlag l = true := has_true hl
  have e2 : (![![cell 0 0, cell 0 1, cell 0 2], ![cell 1 0, cell 1 1, cell 1 2], ![cell 2 0, cell 2 1, cell 2 2]] : M3 K) = cell := by
    funext i j
    fin_cases i <;> fin_cases j <;> rfl
  conv_lhs => rw [preamble.eq_def]
  have e3 : readCell L (a :: b :: c :: rest) h = .ok { h with cell := cell } := by
    rw [readCell]
    have a1 : row3 L ((a :: b :: c :: rest).getD 0 []).split = .ok ![cell 0 0, cell 0 1, cell 0 2] := row3_numbers ha
    have a2 : row3 L ((a :: b :: c :: rest).getD 1 []).split = .ok ![cell 1 0, cell 1 1, cell 1 2] := row3_numbers hb
    have a3 : row3 L ((a :: b :: c :: rest).getD 2 []).split = .ok ![cell 2 0, cell 2 1, cell 2 2] := row3_numbers hc
    rw [a1, a2, a3]
    simp only [e2]
  simp only [cellStep, e1, if_true, e3, Except.map, atomsStep, has_atoms_no hl2, has_exchange_no hl3, Bool.false_eq_true, if_false,
    Line.contains]
  rfl

/-- What is stored about an atom. -/
structure Stored (cell : M3 K) (s : Site K) (a : TbAtom K) : Prop where
  name : a.name = s.name
  pos : Matrix.vecMul a.pos cell = s.pos
  charge : a.charge = s.charge

theorem toRelative_solves {cell : M3 K} (hd : cell.det ≠ 0) (v : V3 K) :
    ∃ r, toRelative cell v = .ok r ∧ Matrix.vecMul r cell = v := by
  rw [← det3_eq] at hd
  rw [toRelative, if_neg hd]
  refine ⟨_, rfl, ?_⟩
  funext i
  have h : ∀ x y : K, x / det3 cell = y ↔ x = y * det3 cell := fun x y => div_eq_iff hd
  have : ∀ p q r : K, p / det3 cell * cell 0 i + q / det3 cell * cell 1 i + r / det3 cell * cell 2 i =
      (p * cell 0 i + q * cell 1 i + r * cell 2 i) / det3 cell := fun p q r => by ring
  simp only [Matrix.vecMul, dotProduct, Fin.sum_univ_three, Matrix.cons_val_zero, Matrix.cons_val_one, Matrix.cons_val]
  rw [this, h]
  fin_cases i <;> simp [det3] <;> ring

theorem readAtom_site [CharZero K] {l : Str} {a : Site K} (h : SaysSite L l a) {cell : M3 K} (hd : cell.det ≠ 0) :
    ∃ t, readAtom L cell l.split = .ok t ∧ Stored cell a t := by
  obtain ⟨-, x, y, z, ws, h1, h2, h3⟩ := h
  obtain ⟨r, hr, hs⟩ := toRelative_solves hd a.pos
  have e1 : row3 L ((l.split.drop 1).take 3) = .ok a.pos := by
    rw [h1]
    have : (List.drop 1 (a.name :: x :: y :: z :: ws)).take 3 = [x, y, z] := rfl
    rw [this, row3_numbers h2]
    congr 1
    funext i
    fin_cases i <;> rfl
  have e2 : l.split.drop 4 = ws := by rw [h1]; rfl
  have e3 : l.split.headD [] = a.name := by rw [h1]; rfl
  have e4 : l.split.drop 5 = ws.tail := by rw [← e2, List.tail_drop]
  rcases h3 with ⟨rfl, hq⟩ | ⟨w, ms, rfl, ⟨q, q1, q2⟩, hm⟩
  · refine ⟨⟨a.name, r, none⟩, ?_, rfl, hs, hq.symm⟩
    rw [readAtom, e1, e2, e3, e4]
    simp [optional, hr]
  · refine ⟨⟨a.name, r, some q⟩, ?_, rfl, hs, q2.symm⟩
    have m1 : ∃ o, optional L ((w :: ms).tail.take 3) 3 = .ok o := by
      rw [List.tail_cons, optional]
      rcases hm with hm | ⟨mx, hm⟩
      · rw [if_pos (by rw [List.length_take]; omega)]
        exact ⟨_, rfl⟩
      · rw [floats_numbers hm]
        split_ifs
        · exact ⟨_, rfl⟩
        · exact ⟨_, rfl⟩
    obtain ⟨o, m1⟩ := m1
    have m2 : optional L ((w :: ms).take 1) 1 = .ok (some [q]) := by
      have : (w :: ms).take 1 = [w] := rfl
      rw [this, optional, if_neg (by simp), floats_numbers (.cons q1 .nil)]
      rfl
    rw [readAtom, e1, e2, e3, e4, m1, m2]
    simp [hr]

theorem atomRows_sites [CharZero K] {rows : List Str} {sites : List (Site K)} (h : List.Forall₂ (SaysSite L) rows sites)
    (hd : Head K) (hdet : hd.cell.det ≠ 0) (rest : List Str) : ∃ ts, List.Forall₂ (Stored hd.cell) sites ts ∧
      atomRows L (rows ++ rest) hd = atomRows L rest { hd with atoms := hd.atoms ++ ts } := by
  induction h generalizing hd with
  | nil => exact ⟨[], .nil, by simp⟩
  | @cons l a rows sites h1 _ ih =>
    obtain ⟨t, t1, t2⟩ := readAtom_site h1 hdet
    obtain ⟨ts, t3, t4⟩ := ih { hd with atoms := hd.atoms ++ [t] } hdet
    refine ⟨t :: ts, .cons t2 t3, ?_⟩
    have e1 : l.split ≠ [] := by
      obtain ⟨-, x, y, z, ws, e, -⟩ := h1
      rw [e]
      simp
    have e2 : Str.mem atomEndFlag l.split = false := mem_false h1.1
    rw [List.cons_append]
    conv_lhs => rw [atomRows.eq_def]
    simp only [e1, e2, t1, Bool.false_eq_true, if_false]
    rw [t4]
    simp

theorem preamble_atoms [CharZero K] {m t1 t2 t : Str} (hm1 : ¬ Mentions "Cell (Angstrom):" m) (hm2 : Mentions "Atoms:" m)
    {rows : List Str} {sites : List (Site K)} (h : List.Forall₂ (SaysSite L) rows sites) (ht : Str.lit "Total" ∈ t.split)
    (ht2 : Str.lit "Exchange:" ∉ t.split) (rest : List Str) (n : ℕ) (hd : Head K) (hdet : hd.cell.det ≠ 0) :
    ∃ ts, List.Forall₂ (Stored hd.cell) sites ts ∧ preamble L (n + 1) (m :: t1 :: t2 :: (rows ++ t :: rest)) hd =
      preamble L n rest { hd with atoms := hd.atoms ++ ts } := by
  obtain ⟨ts, h1, h2⟩ := atomRows_sites h hd hdet (t :: rest)
  refine ⟨ts, h1, ?_⟩
  have e1 : has atomsFlag m = true := has_true hm2
  have e2 : atomRows L (t :: rest) { hd with atoms := hd.atoms ++ ts } =
      .ok ({ hd with atoms := hd.atoms ++ ts }, some (.words t.split), rest) := by
    rw [atomRows.eq_def]
    have a1 : t.split ≠ [] := List.ne_nil_of_mem ht
    have a2 : Str.mem atomEndFlag t.split = true := mem_true ht
    simp only [a1, a2, if_false, if_true]
  have e3 : Str.mem exchangeFlag t.split = false := mem_false ht2
  conv_lhs => rw [preamble.eq_def]
  have e4 : (t1 :: t2 :: (rows ++ t :: rest)).drop 2 = rows ++ t :: rest := rfl
  simp only [cellStep, atomsStep, has_cell_no hm1, e1, e4, h2, e2, e3, Bool.false_eq_true, if_false, if_true, Line.contains]

theorem preamble_exchange {x : Str} (h1 : ¬ Mentions "Cell (Angstrom):" x) (h2 : ¬ Mentions "Atoms:" x) (h3 : Mentions "Exchange:" x)
    (rest : List Str) (n : ℕ) (h : Head K) : preamble L (n + 1) (x :: rest) h = .ok (h, some (.text x), rest) := by
  rw [preamble.eq_def]
  have e1 : has exchangeFlag x = true := has_true h3
  simp only [cellStep, atomsStep, has_cell_no h1, has_atoms_no h2, e1, Bool.false_eq_true, if_false, if_true, Line.contains]

theorem skip_sep {ys : List Str} (h : ∀ y ∈ ys, ¬ IsSep y) {sep : Str} (hs : IsSep sep) (rest : List Str) :
    skip (ys ++ sep :: rest) = rest := by
  induction ys with
  | nil =>
    have : has minorSep sep = true := has_true hs
    rw [List.nil_append, skip, this, if_pos rfl]
  | cons y ys ih =>
    have : has minorSep y = false := has_false (h y List.mem_cons_self)
    rw [List.cons_append, skip, this]
    exact ih fun x hx => h x (List.mem_cons_of_mem _ hx)

theorem start_ok (h : Head K) : ∃ s, start L h = .ok s ∧ s.Alloc ∧ s.getNotation = .ok (true, true, -1, -1) ∧ (∀ b, s.valE b = none) ∧
    (∀ a, s.valO a = none) ∧ s.atoms = h.atoms.mapIdx fun i d => ⟨String.ofList d.name, (i : ℤ) + 1⟩ := by
  have e : "TB2J".toLower = "tb2j" := by decide +kernel
  refine ⟨_, by rw [start, St.setNotation]; simp only [e]; rfl, ?_, rfl, fun _ => rfl, fun _ => rfl, rfl⟩
  exact ⟨fun _ r h => absurd (show (none : Option ℕ) = some r from h) (by simp),
    fun _ r h => absurd (show (none : Option ℕ) = some r from h) (by simp)⟩

end

end Tb2j
end Magnopy
