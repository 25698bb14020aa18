import Verif.Lemmas.Tb2j
import Verif.Lemmas.TxtDumpSample
import Mathlib.LinearAlgebra.Matrix.NonsingularInverse

/-!
# C66: reading the output of TB2J
-/

set_option autoImplicit false
set_option linter.unusedSectionVars false

namespace Magnopy
namespace Tb2j

open Txt
open H5 (Full)

section
variable {K : Type} [Field K] {L : Lib K}

/-- The matrix of a block acts as `j u·v + u·A v + d·(u × v)`. -/
theorem C66_form (is : List (Item K)) (u v : V3 K) : u ⬝ᵥ (Item.matrix is).mulVec v =
    (Item.lastIso is).getD 0 * (u ⬝ᵥ v) + u ⬝ᵥ ((Item.lastAniso is).getD 0).mulVec v +
      ((Item.lastDmi is).getD 0) ⬝ᵥ (crossProduct u v) := by
  rw [Item.matrix]
  simp only [Matrix.add_mulVec, dotProduct_add, Matrix.smul_mulVec, Matrix.one_mulVec, dotProduct_smul, smul_eq_mul]
  congr 1
  rw [cross_apply]
  simp [dotProduct, Matrix.mulVec, Fin.sum_univ_three]
  ring

/-- What `load` returns for a header and a Hamiltonian. -/
def finish (h : Head K) (s : St K) : Full K where
  cell := h.cell
  pos := fun a => ((h.atoms[(a.index - 1).toNat]?).map TbAtom.pos).getD 0
  spinVec := fun _ => none
  gFactor := fun _ => 2
  charge := fun a => (h.atoms[(a.index - 1).toNat]?).bind TbAtom.charge
  ham := s
  spiral := none
  cone := none

variable [DecidableEq K] [CharZero K]

theorem head_read {top : List Str} {cell : M3 K} {sites : List (Site K)} (ht : Top L top cell sites) (hd : cell.det ≠ 0) :
    ∃ h : Head K, h.cell = cell ∧ List.Forall₂ (Stored cell) sites h.atoms ∧
      (∀ (t : Str) (rest : List Str) (n : ℕ), Str.lit "Total" ∈ t.split → Str.lit "Exchange:" ∉ t.split →
        (top ++ t :: rest).length ≤ n → ∃ m, rest.length ≤ m ∧ preamble L n (top ++ t :: rest) ⟨1, []⟩ = preamble L m rest h) ∧
      ∀ (t : Str) (rest : List Str) (n : ℕ), t.split = [] → (top ++ t :: rest).length ≤ n →
        preamble L n (top ++ t :: rest) ⟨1, []⟩ = .ok (h, none, rest) := by
  obtain ⟨pre, l, a, b, c, mid, m, t1, t2, rows, rfl, hq, ⟨l1, l2, l3⟩, ha, hb, hc, hq2, ⟨m1, m2⟩, hr⟩ := ht
  obtain ⟨ts, h1, h2⟩ := atomRows_sites hr (⟨cell, []⟩ : Head K) hd []
  have key : ∀ (tail : List Str) (n : ℕ), (pre ++ l :: a :: b :: c :: (mid ++ m :: t1 :: t2 :: (rows ++ tail))).length ≤ n →
      ∃ k, tail.length ≤ k ∧ preamble L n (pre ++ l :: a :: b :: c :: (mid ++ m :: t1 :: t2 :: (rows ++ tail))) ⟨1, []⟩ =
        preamble L (k + 1) (m :: t1 :: t2 :: (rows ++ tail)) ⟨cell, []⟩ := by
    intro tail n hn
    simp only [List.length_append, List.length_cons] at hn
    obtain ⟨k, hk, hk2⟩ : ∃ k, n = pre.length + ((mid.length + (k + 1)) + 1) ∧ tail.length ≤ k :=
      ⟨n - pre.length - mid.length - 2, by omega, by omega⟩
    refine ⟨k, hk2, ?_⟩
    rw [hk, preamble_quiet hq, preamble_cell l1 l2 l3 ha hb hc, preamble_quiet hq2]
  have rows_of : ∀ tail : List Str, atomRows L (rows ++ tail) ⟨cell, []⟩ = atomRows L tail ⟨cell, ts⟩ := by
    intro tail
    obtain ⟨ts', e1, e2⟩ := atomRows_sites hr (⟨cell, []⟩ : Head K) hd tail
    have : ts' = ts := by
      have hinj : ∀ {ss : List (Site K)} {x y : List (TbAtom K)}, List.Forall₂ (Stored cell) ss x → List.Forall₂ (Stored cell) ss y →
          x = y := by
        intro ss x y hx
        induction hx generalizing y with
        | nil => intro hy; cases hy; rfl
        | @cons s p ss x h _ ih =>
          intro hy
          cases hy with
          | @cons _ q _ y h' hy =>
            rw [ih hy]
            congr 1
            obtain ⟨n1, p1, c1⟩ := p
            obtain ⟨n2, p2, c2⟩ := q
            have e1 : n1 = n2 := h.name.trans h'.name.symm
            have e2 : c1 = c2 := h.charge.trans h'.charge.symm
            have e3 : p1 = p2 := by
              have := h.pos.trans h'.pos.symm
              have h' := congrArg (fun v => Matrix.vecMul v cell⁻¹) this
              simpa [Matrix.vecMul_vecMul, Matrix.mul_nonsing_inv _ (isUnit_iff_ne_zero.2 hd)] using h'
            rw [e1, e2, e3]
      exact hinj e1 h1
    rw [e2, this]
    simp
  refine ⟨⟨cell, ts⟩, rfl, h1, fun t rest n p1 p2 hn => ?_, fun t rest n p1 hn => ?_⟩
  · obtain ⟨k, k1, k2⟩ := key (t :: rest) n (by simpa using hn)
    refine ⟨k, by simp at k1; omega, ?_⟩
    have e : pre ++ l :: a :: b :: c :: (mid ++ m :: t1 :: t2 :: rows) ++ t :: rest =
        pre ++ l :: a :: b :: c :: (mid ++ m :: t1 :: t2 :: (rows ++ t :: rest)) := by simp
    rw [e, k2, preamble.eq_def]
    have e1 : has atomsFlag m = true := has_true m2
    have e2 : atomRows L (t :: rest) ⟨cell, ts⟩ = .ok (⟨cell, ts⟩, some (.words t.split), rest) := by
      rw [atomRows.eq_def]
      have a1 : t.split ≠ [] := List.ne_nil_of_mem p1
      have a2 : Str.mem atomEndFlag t.split = true := mem_true p1
      simp only [a1, a2, if_false, if_true]
    have e3 : Str.mem exchangeFlag t.split = false := mem_false p2
    have e4 : (t1 :: t2 :: (rows ++ t :: rest)).drop 2 = rows ++ t :: rest := rfl
    simp only [cellStep, atomsStep, has_cell_no m1, e1, e4, rows_of, e2, e3, Bool.false_eq_true, if_false, if_true, Line.contains]
  · obtain ⟨k, k1, k2⟩ := key (t :: rest) n (by simpa using hn)
    have e : pre ++ l :: a :: b :: c :: (mid ++ m :: t1 :: t2 :: rows) ++ t :: rest =
        pre ++ l :: a :: b :: c :: (mid ++ m :: t1 :: t2 :: (rows ++ t :: rest)) := by simp
    rw [e, k2, preamble.eq_def]
    have e1 : has atomsFlag m = true := has_true m2
    have e2 : atomRows L (t :: rest) ⟨cell, ts⟩ = .ok (⟨cell, ts⟩, none, rest) := by
      rw [atomRows.eq_def]
      simp only [p1, if_true]
    have e4 : (t1 :: t2 :: (rows ++ t :: rest)).drop 2 = rows ++ t :: rest := rfl
    simp only [cellStep, atomsStep, has_cell_no m1, e1, e4, rows_of, e2, Bool.false_eq_true, if_false, if_true]

theorem load_parts {top mid : List Str} {cell : M3 K} {sites : List (Site K)} (ht : Top L top cell sites) (hm : Middle mid)
    (hd : cell.det ≠ 0) : ∃ h s, h.cell = cell ∧ List.Forall₂ (Stored cell) sites h.atoms ∧ start L h = .ok s ∧
      ∀ ls, ∃ n, ls.length < n ∧ load L (top ++ mid ++ ls) = (bonds L n ls s).map (finish h) := by
  obtain ⟨h, h1, h2, h3, -⟩ := head_read ht hd
  obtain ⟨s, hs, -⟩ := start_ok (L := L) h
  refine ⟨h, s, h1, h2, hs, fun ls => ?_⟩
  obtain ⟨t, quiet, x, skipped, sep, rfl, t1, t2, hq, ⟨x1, x2, x3, x4⟩, hk, hsep⟩ := hm
  have e : top ++ t :: (quiet ++ x :: (skipped ++ [sep])) ++ ls = top ++ t :: (quiet ++ x :: (skipped ++ sep :: ls)) := by simp
  obtain ⟨m, m1, m2⟩ := h3 t (quiet ++ x :: (skipped ++ sep :: ls)) _ t1 t2 le_rfl
  simp only [List.length_append, List.length_cons] at m1
  obtain ⟨k, rfl⟩ : ∃ k, m = quiet.length + (k + 1) := ⟨m - quiet.length - 1, by omega⟩
  rw [preamble_quiet hq, preamble_exchange x1 x2 x3] at m2
  refine ⟨(skipped ++ sep :: ls).length + 1, by simp; omega, ?_⟩
  have hx : has minorSep x = false := has_false x4
  rw [e, load, m2]
  simp only [hs, exchange, Line.contains, hx, Bool.false_eq_true, if_false, skip_sep hk hsep]
  cases bonds L ((skipped ++ sep :: ls).length + 1) ls s <;> rfl

theorem stored_names {cell : M3 K} {sites : List (Site K)} {ts : List (TbAtom K)} (h : List.Forall₂ (Stored cell) sites ts) :
    ts.map TbAtom.name = sites.map Site.name := by
  induction h with
  | nil => rfl
  | cons h _ ih => rw [List.map_cons, List.map_cons, h.name, ih]

theorem start_ready {h : Head K} {cell : M3 K} {sites : List (Site K)} (hst : List.Forall₂ (Stored cell) sites h.atoms)
    (hn : Names sites) {s : St K} (hs : start L h = .ok s) : Ready s (sites.map Site.name) ∧ Agrees s [] ∧
      s.getNotation = .ok (true, true, -1, -1) ∧ (∀ a, s.valO a = none) ∧
      s.atoms = h.atoms.mapIdx fun i d => ⟨String.ofList d.name, (i : ℤ) + 1⟩ := by
  obtain ⟨s', e1, e2, e3, e4, e5, e6⟩ := start_ok (L := L) h
  obtain rfl : s' = s := by rw [e1] at hs; exact Except.ok.inj hs
  have names : s'.atoms.map Atom.name = (sites.map Site.name).map String.ofList := by
    rw [e6, ← stored_names hst, List.map_map]
    apply List.ext_getElem
    · simp
    · intro i h1 h2
      simp
  have nodup : (s'.atoms.map Atom.name).Nodup := by
    rw [names]
    exact hn.1.map fun a b => ofList_inj
  refine ⟨⟨e2, ?_, nodup, fun w hw => ?_⟩, ⟨fun b _ _ => by rw [e4, final_nil], fun b _ => e4 b⟩, e3, e5, e6⟩
  · rw [St.getNotation] at e3
    split at e3 <;> simp_all
  · obtain ⟨a, ha, rfl⟩ := List.mem_map.1 hw
    have hm : String.ofList a.name ∈ s'.atoms.map Atom.name := by rw [names]; exact List.mem_map_of_mem hw
    obtain ⟨A, hA, hAn⟩ := List.mem_map.1 hm
    have : s'.atoms.filter (fun x => x.name == String.ofList a.name || x.fullname == String.ofList a.name) = [A] := by
      rw [← filter_singleton nodup hA]
      refine List.filter_congr fun x _ => ?_
      have : (x.fullname == String.ofList a.name) = false := by
        rw [beq_eq_false_iff_ne]
        exact fun h => hn.2 a ha (fullname_infix h)
      rw [this, Bool.or_false, hAn]
    exact ⟨A, by rw [St.getAtom, this], hA, by rw [hAn, String.toList_ofList]⟩

/-- **C66.** A TB2J file is read: cell, atoms (their positions made relative), charges, the notation of TB2J, no on-site
parameters and no spins; the matrix of a bond is what the entries of the file say about it. -/
theorem C66_load {top mid ls : List Str} {cell : M3 K} {sites : List (Site K)} {es : List (Entry K)} (ht : Top L top cell sites)
    (hm : Middle mid) (hb : Blocks L ls es) (hd : cell.det ≠ 0) (hn : Names sites)
    (he : ∀ e ∈ es, e.name1 ∈ sites.map Site.name ∧ e.name2 ∈ sites.map Site.name) :
    ∃ f, load L (top ++ mid ++ ls) = .ok f ∧ f.cell = cell ∧ f.ham.atoms.length = sites.length ∧
      (∀ (i : ℕ) (a : Site K), sites[i]? = some a → ∃ A, f.ham.atoms[i]? = some A ∧ A.name = String.ofList a.name ∧
        A.index = (i : ℤ) + 1 ∧ Matrix.vecMul (f.pos A) cell = a.pos ∧ f.charge A = a.charge) ∧
      f.ham.getNotation = .ok (true, true, -1, -1) ∧ (∀ a, f.ham.valO a = none) ∧ (∀ a, f.spinVec a = none) ∧
      (∀ A ∈ f.ham.atoms, ∀ B ∈ f.ham.atoms, ∀ R, f.ham.valE (A, B, R) = final es (A.name.toList, B.name.toList, R)) ∧
      ∀ A B R, A ∉ f.ham.atoms ∨ B ∉ f.ham.atoms → f.ham.valE (A, B, R) = none := by
  obtain ⟨h, s, h1, h2, h3, h4⟩ := load_parts ht hm hd
  obtain ⟨n, n1, n2⟩ := h4 ls
  obtain ⟨r1, r2, r3, r4, r5⟩ := start_ready h2 hn h3
  obtain ⟨t, t1, t2, t3, t4, t5⟩ := bonds_read hb he n ((blocks_length hb).trans n1.le) [] s r1 r2
  have hlen := h2.length_eq
  refine ⟨finish h t, by rw [n2, t1]; rfl, h1, ?_, ?_, ?_, fun a => (t3 a).trans (r4 a), fun _ => rfl, ?_, ?_⟩
  · show t.atoms.length = _
    rw [t5, r5, List.length_mapIdx, hlen]
  · intro i a ha
    have hi : i < sites.length := (List.getElem?_eq_some_iff.1 ha).1
    obtain ⟨q, hq⟩ : ∃ q, h.atoms[i]? = some q := ⟨_, List.getElem?_eq_getElem (hlen ▸ hi)⟩
    have hst : Stored cell a q := by
      have := h2.get hi (hlen ▸ hi)
      rw [List.getElem?_eq_getElem hi] at ha
      rw [List.getElem?_eq_getElem (hlen ▸ hi)] at hq
      simpa [Option.some.inj ha, Option.some.inj hq] using this
    refine ⟨⟨String.ofList q.name, (i : ℤ) + 1⟩, ?_, by rw [hst.name], rfl, ?_, ?_⟩
    · show t.atoms[i]? = _
      rw [t5, r5, List.getElem?_mapIdx, hq]
      rfl
    · simp [finish, hq, hst.pos]
    · simp [finish, hq, hst.charge]
  · show t.getNotation = _
    rw [← r3, St.getNotation, St.getNotation]
    simp only [Prod.mk.injEq] at t4
    rw [t4.1, t4.2.1, t4.2.2.1, t4.2.2.2]
  · intro A hA B hB R
    exact t2.inside (A, B, R) hA hB
  · intro A B R hAB
    exact t2.outside (A, B, R) hAB

theorem final_some {es : List (Entry K)} (hc : Consistent es) {e : Entry K} (he : e ∈ es) :
    final es e.key = some (Item.matrix e.items) := by
  rw [final]
  cases h : (es.filter fun x => decide (x.key = e.key)).getLast? with
  | none =>
    rw [List.getLast?_eq_none_iff, List.filter_eq_nil_iff] at h
    exact absurd (h e he) (by simp)
  | some x =>
    have := List.mem_filter.1 (List.mem_of_getLast? h)
    simp only [decide_eq_true_eq] at this
    exact congrArg some ((hc e he x this.1).1 this.2)

theorem final_some_opposite {es : List (Entry K)} (hc : Consistent es) {e : Entry K} (he : e ∈ es) :
    final es (opposite e.key) = some (Item.matrix e.items).transpose := by
  rw [final, opposite_opposite]
  cases h : (es.filter fun x => decide (x.key = opposite e.key)).getLast? with
  | some x =>
    have := List.mem_filter.1 (List.mem_of_getLast? h)
    simp only [decide_eq_true_eq] at this
    exact congrArg some ((hc e he x this.1).2 this.2)
  | none =>
    cases h2 : es.filter fun x => decide (x.key = e.key) with
    | nil =>
      rw [List.filter_eq_nil_iff] at h2
      exact absurd (h2 e he) (by simp)
    | cons x l =>
      have : x ∈ es.filter fun x => decide (x.key = e.key) := by rw [h2]; exact List.mem_cons_self
      have := List.mem_filter.1 this
      simp only [decide_eq_true_eq] at this
      simp [((hc e he x this.1).1 this.2)]

/-- If the entries do not contradict each other, every entry is stored, and the opposite bond is stored with the transpose, whether
or not the file contains it. -/
theorem C66_both {top mid ls : List Str} {cell : M3 K} {sites : List (Site K)} {es : List (Entry K)} (ht : Top L top cell sites)
    (hm : Middle mid) (hb : Blocks L ls es) (hd : cell.det ≠ 0) (hn : Names sites)
    (he : ∀ e ∈ es, e.name1 ∈ sites.map Site.name ∧ e.name2 ∈ sites.map Site.name) (hc : Consistent es) :
    ∃ f, load L (top ++ mid ++ ls) = .ok f ∧ ∀ e ∈ es, ∃ A ∈ f.ham.atoms, ∃ B ∈ f.ham.atoms, A.name = String.ofList e.name1 ∧
      B.name = String.ofList e.name2 ∧ f.ham.valE (A, B, e.R) = some (Item.matrix e.items) ∧
      f.ham.valE (B, A, (-e.R.1, -e.R.2.1, -e.R.2.2)) = some (Item.matrix e.items).transpose := by
  obtain ⟨f, f1, -, -, f4, -, -, -, f8, -⟩ := C66_load ht hm hb hd hn he
  refine ⟨f, f1, fun e hmem => ?_⟩
  have get : ∀ w ∈ sites.map Site.name, ∃ A ∈ f.ham.atoms, A.name = String.ofList w := by
    intro w hw
    obtain ⟨a, ha, rfl⟩ := List.mem_map.1 hw
    obtain ⟨i, hi⟩ := List.mem_iff_getElem?.1 ha
    obtain ⟨A, A1, A2, -⟩ := f4 i a hi
    exact ⟨A, List.mem_of_getElem? A1, A2⟩
  obtain ⟨A, A1, A2⟩ := get _ (he e hmem).1
  obtain ⟨B, B1, B2⟩ := get _ (he e hmem).2
  refine ⟨A, A1, B, B1, A2, B2, ?_, ?_⟩
  · rw [f8 A A1 B B1, A2, B2, String.toList_ofList, String.toList_ofList]
    exact final_some hc hmem
  · rw [f8 B B1 A A1, A2, B2, String.toList_ofList, String.toList_ofList]
    exact final_some_opposite hc hmem

theorem bonds_trailing {ls : List Str} {es : List (Entry K)} (h : Blocks L ls es) {sep : Str} (hsep : Divides sep) {names : List Str}
    (hn : ∀ e ∈ es, e.name1 ∈ names ∧ e.name2 ∈ names) (n : ℕ) (hl : es.length < n) (pre : List (Entry K)) (s : St K)
    (hs : Ready s names) (ha : Agrees s pre) : bonds L n (ls ++ [sep]) s = .error .indexError := by
  induction h generalizing n pre s with
  | @last h ls e hh hsays =>
    obtain ⟨n, rfl⟩ : ∃ m, n = m + 2 := ⟨n - 2, by simp at hl; omega⟩
    obtain ⟨ws, d, e1, e2, e3, e4⟩ := header_read hh
    obtain ⟨p, p1, p2⟩ := block_says hsays (rest := [sep]) {} [] holds_nil
    obtain ⟨t, t1, _⟩ := block_of hs ha (hn e List.mem_cons_self).1 (hn e List.mem_cons_self).2 p1
    rw [block_sep hsep] at p2
    rw [List.cons_append, bonds.eq_def]
    simp only [List.headD_cons, List.tail_cons, e1, e2, e3, e4, p2, t1, Bool.false_eq_true, if_false, if_true]
    rfl
  | @cons h l ls rest e es hh hsays hdiv _ ih =>
    obtain ⟨n, rfl⟩ : ∃ m, n = m + 1 := ⟨n - 1, by simp at hl; omega⟩
    obtain ⟨ws, d, e1, e2, e3, e4⟩ := header_read hh
    obtain ⟨p, p1, p2⟩ := block_says hsays (rest := l :: (rest ++ [sep])) {} [] holds_nil
    obtain ⟨t, t1, t2, t3, _⟩ := block_of hs ha (hn e List.mem_cons_self).1 (hn e List.mem_cons_self).2 p1
    have u := ih (fun x hx => hn x (List.mem_cons_of_mem _ hx)) n (by simpa using hl) _ t t2 t3
    rw [block_sep hdiv] at p2
    rw [List.cons_append, List.append_assoc, List.cons_append, bonds.eq_def]
    simp only [List.headD_cons, List.tail_cons, e1, e2, e3, e4, p2, t1, u, Bool.false_eq_true, if_false, if_true]

/-- A file that ends with a separator after the last block cannot be read. -/
theorem C66_trailing {top mid ls : List Str} {cell : M3 K} {sites : List (Site K)} {es : List (Entry K)} (ht : Top L top cell sites)
    (hm : Middle mid) (hb : Blocks L ls es) {sep : Str} (hsep : Divides sep) (hd : cell.det ≠ 0) (hn : Names sites)
    (he : ∀ e ∈ es, e.name1 ∈ sites.map Site.name ∧ e.name2 ∈ sites.map Site.name) :
    load L (top ++ mid ++ (ls ++ [sep])) = .error .indexError := by
  obtain ⟨h, s, h1, h2, h3, h4⟩ := load_parts ht hm hd
  obtain ⟨n, n1, n2⟩ := h4 (ls ++ [sep])
  obtain ⟨r1, r2, -⟩ := start_ready h2 hn h3
  rw [n2, bonds_trailing hb hsep he n (lt_of_le_of_lt (blocks_length hb) (by simp at n1; omega)) [] s r1 r2]
  rfl

/-- A file without bonds cannot be read. -/
theorem C66_no_bonds {top mid : List Str} {cell : M3 K} {sites : List (Site K)} (ht : Top L top cell sites)
    (hm : Middle mid) (hd : cell.det ≠ 0) : load L (top ++ mid) = .error .indexError := by
  obtain ⟨h, s, h1, h2, h3, h4⟩ := load_parts ht hm hd
  obtain ⟨n, n1, n2⟩ := h4 []
  obtain ⟨n, rfl⟩ : ∃ m, n = m + 1 := ⟨n - 1, by simp at n1; omega⟩
  rw [← List.append_nil (top ++ mid), n2]
  rfl

/-- If the table of atoms ends with an empty line (and not with the line "Total"), everything after it is ignored: the Hamiltonian
has the atoms but no bonds, and there is no error. -/
theorem C66_empty_line {top : List Str} {cell : M3 K} {sites : List (Site K)} (ht : Top L top cell sites) (hd : cell.det ≠ 0)
    {t : Str} (h0 : t.split = []) (rest : List Str) : ∃ f, load L (top ++ t :: rest) = .ok f ∧ f.cell = cell ∧
      f.ham.atoms.map Atom.name = sites.map (fun a => String.ofList a.name) ∧ ∀ b, f.ham.valE b = none := by
  obtain ⟨h, h1, h2, -, h4⟩ := head_read ht hd
  obtain ⟨s, e1, e2, e3, e4, e5, e6⟩ := start_ok (L := L) h
  refine ⟨finish h s, ?_, h1, ?_, e4⟩
  · rw [load, h4 t rest _ h0 le_rfl]
    simp only [e1, exchange]
    rfl
  · show s.atoms.map Atom.name = _
    have : sites.map (fun a => String.ofList a.name) = (sites.map Site.name).map String.ofList := by simp
    rw [e6, this, ← stored_names h2, List.map_map]
    apply List.ext_getElem
    · simp
    · intro i h1 h2
      simp

end

/-! ### Examples -/

namespace Ex

instance (p : String) (l : Str) : Decidable (Mentions p l) := decidable_of_iff _ (has_iff p.toList l)
instance (l : Str) : Decidable (IsSep l) := decidable_of_iff _ (has_iff _ l)
instance (l : Str) : Decidable (Quiet l) := by unfold Quiet; infer_instance
instance (l : Str) : Decidable (Divides l) := by unfold Divides; infer_instance

/-- The rational numbers in decimal notation. -/
def Q : Lib ℚ := decimalLib (fun _ => 1) (fun _ => 0) (fun _ => 1) fun m => m

/-- A separator. -/
def sep : Str := List.replicate 88 '-'

/-- The part up to the table of atoms. -/
def top : List Str := ["====", "Cell (Angstrom):", "2.0 0.0 0.0", "0.0 4.0 0.0", "1.0 0.0 5.0", "====", "Atoms:", "(Note: charges)",
  "Atom x y z w_charge M(x) M(y) M(z)", "Cr1 1.0 2.0 0.0 4.5 0.0 0.0 3.0", "Cr2 0.5 0.0 2.5"].map String.toList

/-- The part up to the first separator. -/
def mid : List Str := ["Total 4.5 0.0 0.0 3.0", "====", "Exchange:", "i j R J_iso(meV) vector distance(A)"].map String.toList ++ [sep]

/-- The first block. -/
def first : List Str := ["Cr1 Cr2 (1, 0, 0) 2.0 (1.0, 1.0, 1.0) 1.5", "J_iso: 2.0", "[Testing!] Jprime: 1.0", "J_ani:", "[[1.0 2.0 0.0]",
  "[2.0 3.0 0.0]", "[0.0 0.0 1.0]]", "DMI: (1.0 -2.0 3.0)"].map String.toList

/-- The second block. -/
def second : List Str := ["Cr2 Cr1 (-1, 0, 0) 7.0 (1.0, 1.0, 1.0) 1.5", "J_iso: 7.0"].map String.toList

/-- What the first block says. -/
def e1 : Entry ℚ := ⟨"Cr1".toList, "Cr2".toList, (1, 0, 0), [.iso 2, .aniso !![1, 2, 0; 2, 3, 0; 0, 0, 1], .dmi ![1, -2, 3]]⟩

/-- What the second block says. -/
def e2 : Entry ℚ := ⟨"Cr2".toList, "Cr1".toList, (-1, 0, 0), [.iso 7]⟩

/-- The cell. -/
def cell : M3 ℚ := !![2, 0, 0; 0, 4, 0; 1, 0, 5]

/-- The atoms. -/
def sites : List (Site ℚ) := [⟨"Cr1".toList, ![1, 2, 0], some (9 / 2)⟩, ⟨"Cr2".toList, ![1 / 2, 0, 5 / 2], none⟩]

theorem numbers3 {a b c : Str} {x y z : ℚ} (h1 : Q.float a = some x) (h2 : Q.float b = some y) (h3 : Q.float c = some z) :
    Numbers Q [a, b, c] [x, y, z] := .cons h1 (.cons h2 (.cons h3 .nil))

theorem top_ok : Top Q top cell sites := by
  refine ⟨["====".toList], "Cell (Angstrom):".toList, "2.0 0.0 0.0".toList, "0.0 4.0 0.0".toList, "1.0 0.0 5.0".toList, ["====".toList],
    "Atoms:".toList, "(Note: charges)".toList, "Atom x y z w_charge M(x) M(y) M(z)".toList,
    ["Cr1 1.0 2.0 0.0 4.5 0.0 0.0 3.0".toList, "Cr2 0.5 0.0 2.5".toList], rfl, by decide +kernel, by decide +kernel, ?_, ?_, ?_,
    by decide +kernel, by decide +kernel, .cons ?_ (.cons ?_ .nil)⟩
  · have : Str.split "2.0 0.0 0.0".toList = ["2.0".toList, "0.0".toList, "0.0".toList] := by decide +kernel
    rw [this]
    exact numbers3 (by decide +kernel) (by decide +kernel) (by decide +kernel)
  · have : Str.split "0.0 4.0 0.0".toList = ["0.0".toList, "4.0".toList, "0.0".toList] := by decide +kernel
    rw [this]
    exact numbers3 (by decide +kernel) (by decide +kernel) (by decide +kernel)
  · have : Str.split "1.0 0.0 5.0".toList = ["1.0".toList, "0.0".toList, "5.0".toList] := by decide +kernel
    rw [this]
    exact numbers3 (by decide +kernel) (by decide +kernel) (by decide +kernel)
  · refine ⟨by decide +kernel, "1.0".toList, "2.0".toList, "0.0".toList, ["4.5".toList, "0.0".toList, "0.0".toList, "3.0".toList],
      by decide +kernel, numbers3 (by decide +kernel) (by decide +kernel) (by decide +kernel),
      Or.inr ⟨"4.5".toList, ["0.0".toList, "0.0".toList, "3.0".toList], rfl, ⟨9 / 2, by decide +kernel, rfl⟩,
        Or.inr ⟨[0, 0, 3], numbers3 (by decide +kernel) (by decide +kernel) (by decide +kernel)⟩⟩⟩
  · exact ⟨by decide +kernel, "0.5".toList, "0.0".toList, "2.5".toList, [], by decide +kernel,
      numbers3 (by decide +kernel) (by decide +kernel) (by decide +kernel), Or.inl ⟨rfl, rfl⟩⟩

theorem mid_ok : Middle mid :=
  ⟨"Total 4.5 0.0 0.0 3.0".toList, ["====".toList], "Exchange:".toList, ["i j R J_iso(meV) vector distance(A)".toList], sep, rfl,
    by decide +kernel, by decide +kernel, by decide +kernel, by decide +kernel, by decide +kernel, by decide +kernel⟩

theorem e1_header : Header Q "Cr1 Cr2 (1, 0, 0) 2.0 (1.0, 1.0, 1.0) 1.5".toList e1 :=
  ⟨['1'], ['0'], ['0'], ["2.0".toList, "1.0".toList, "1.0".toList, "1.0".toList, "1.5".toList], "1.5".toList, by decide +kernel,
    by decide +kernel, by decide +kernel, by decide +kernel, rfl, by decide +kernel, by decide +kernel⟩

theorem e1_says : Says Q first.tail e1.items := by
  refine .iso (w := "2.0".toList) (ws := ["J_iso:".toList]) (by decide +kernel) (by decide +kernel) (by decide +kernel) (by decide +kernel)
    (by decide +kernel) (by decide +kernel) (.other (by decide +kernel) (by decide +kernel) (by decide +kernel) (by decide +kernel)
    (.aniso (by decide +kernel) (by decide +kernel) (by decide +kernel) (by decide +kernel) ?_ ?_ ?_
    (.dmi (ws := ["DMI:".toList]) (vs := ["1.0".toList, "-2.0".toList, "3.0".toList]) (by decide +kernel) (by decide +kernel)
    (by decide +kernel) (by decide +kernel) (by decide +kernel) (numbers3 (by decide +kernel) (by decide +kernel) (by decide +kernel)) .nil)))
  · have : Str.split (bare "[[1.0 2.0 0.0]".toList) = ["1.0".toList, "2.0".toList, "0.0".toList] := by decide +kernel
    rw [this]
    exact numbers3 (by decide +kernel) (by decide +kernel) (by decide +kernel)
  · have : Str.split (bare "[2.0 3.0 0.0]".toList) = ["2.0".toList, "3.0".toList, "0.0".toList] := by decide +kernel
    rw [this]
    exact numbers3 (by decide +kernel) (by decide +kernel) (by decide +kernel)
  · have : Str.split (bare "[0.0 0.0 1.0]]".toList) = ["0.0".toList, "0.0".toList, "1.0".toList] := by decide +kernel
    rw [this]
    exact numbers3 (by decide +kernel) (by decide +kernel) (by decide +kernel)

theorem e2_header : Header Q "Cr2 Cr1 (-1, 0, 0) 7.0 (1.0, 1.0, 1.0) 1.5".toList e2 :=
  ⟨"-1".toList, ['0'], ['0'], ["7.0".toList, "1.0".toList, "1.0".toList, "1.0".toList, "1.5".toList], "1.5".toList, by decide +kernel,
    by decide +kernel, by decide +kernel, by decide +kernel, rfl, by decide +kernel, by decide +kernel⟩

theorem e2_says : Says Q second.tail e2.items :=
  .iso (w := "7.0".toList) (ws := ["J_iso:".toList]) (by decide +kernel) (by decide +kernel) (by decide +kernel) (by decide +kernel)
    (by decide +kernel) (by decide +kernel) .nil

theorem one_ok : Blocks Q first [e1] := .last e1_header e1_says

theorem two_ok : Blocks Q (first ++ sep :: second) [e1, e2] :=
  .cons e1_header e1_says (by decide +kernel) (.last e2_header e2_says)

theorem det_ok : cell.det ≠ 0 := by
  rw [← det3_eq]
  decide +kernel

theorem names_ok : Names sites := by
  refine ⟨by decide +kernel, fun a ha => ?_⟩
  rw [← has_iff]
  revert a
  simp only [sites, List.mem_cons, List.not_mem_nil, or_false, forall_eq_or_imp, forall_eq]
  decide +kernel

/-- The file with one block: the entry `xy` of the bond is `2 + 3`, the entry `yx` is `2 - 3`; the opposite bond has them exchanged. -/
example : ∃ f, load Q (top ++ mid ++ first) = .ok f ∧ ∃ A ∈ f.ham.atoms, ∃ B ∈ f.ham.atoms, A.name = "Cr1" ∧ B.name = "Cr2" ∧
    ((f.ham.valE (A, B, (1, 0, 0))).map fun m => (m 0 0, m 0 1, m 1 0)) = some (3, 5, -1) ∧
    ((f.ham.valE (B, A, (-1, 0, 0))).map fun m => (m 0 0, m 0 1, m 1 0)) = some (3, -1, 5) := by
  have hc : Consistent [e1] := by
    intro e he e' he'
    rw [List.mem_singleton] at he he'
    subst he he'
    exact ⟨fun _ => rfl, fun h => absurd h (by decide +kernel)⟩
  obtain ⟨f, h1, h2⟩ := C66_both top_ok mid_ok one_ok det_ok names_ok (by decide +kernel) hc
  obtain ⟨A, hA, B, hB, a1, a2, a3, a4⟩ := h2 e1 (by simp)
  refine ⟨f, h1, A, hA, B, hB, a1, a2, ?_, ?_⟩
  · have : f.ham.valE (A, B, (1, 0, 0)) = _ := a3
    rw [this]
    decide +kernel
  · have : f.ham.valE (B, A, (-1, 0, 0)) = _ := a4
    rw [this]
    decide +kernel

/-- The position of the second atom is made relative. -/
example : ∃ f, load Q (top ++ mid ++ first) = .ok f ∧ ∃ B, f.ham.atoms[1]? = some B ∧ B.index = 2 ∧
    Matrix.vecMul (f.pos B) cell = ![1 / 2, 0, 5 / 2] := by
  obtain ⟨f, h1, -, -, h2, -⟩ := C66_load top_ok mid_ok one_ok det_ok names_ok (by decide +kernel)
  obtain ⟨B, b1, -, b3, b4, -⟩ := h2 1 _ rfl
  exact ⟨f, h1, B, b1, by rw [b3]; norm_num, b4⟩

example : load Q (top ++ mid ++ (first ++ [sep])) = .error .indexError :=
  C66_trailing top_ok mid_ok one_ok (by decide +kernel) det_ok names_ok (by decide +kernel)

example : load Q (top ++ mid) = .error .indexError := C66_no_bonds top_ok mid_ok det_ok

example : ∃ f, load Q (top ++ [] :: (mid ++ first)) = .ok f ∧ f.ham.atoms.map Atom.name = ["Cr1", "Cr2"] ∧ ∀ b, f.ham.valE b = none := by
  obtain ⟨f, h1, -, h3, h4⟩ := C66_empty_line top_ok det_ok (t := []) (by decide +kernel) (mid ++ first)
  exact ⟨f, h1, by rw [h3]; decide +kernel, h4⟩

end Ex

/-- Both directions of a bond with contradicting values are both kept: the Hamiltonian is then not equal to its mirror, although the
notation says that bonds are counted twice. -/
theorem C66_contradiction_false : ∃ (L : Lib ℚ) (ls : List Str) (f : Full ℚ), load L ls = .ok f ∧ f.ham.dc = some true ∧
    ∃ b, f.ham.valE b ≠ none ∧ f.ham.valE b.mirror ≠ (f.ham.valE b).map Matrix.transpose := by
  obtain ⟨f, h1, -, -, h4, h5, -, -, h8, -⟩ := C66_load Ex.top_ok Ex.mid_ok Ex.two_ok Ex.det_ok Ex.names_ok (by decide +kernel)
  obtain ⟨A, a1, a2, -⟩ := h4 0 _ rfl
  obtain ⟨B, b1, b2, -⟩ := h4 1 _ rfl
  have hA := List.mem_of_getElem? a1
  have hB := List.mem_of_getElem? b1
  refine ⟨Ex.Q, _, f, h1, ?_, (A, B, (1, 0, 0)), ?_, ?_⟩
  · rw [St.getNotation] at h5
    split at h5 <;> simp_all
  · rw [h8 A hA B hB, a2, b2]
    decide +kernel
  · intro h
    have e : Bond.mirror (A, B, (1, 0, 0)) = (B, A, (-1, 0, 0)) := rfl
    rw [e, h8 A hA B hB, h8 B hB A hA, a2, b2] at h
    have := congrArg (Option.map fun m : M3 ℚ => m 0 0) h
    revert this
    decide +kernel

end Tb2j
end Magnopy
