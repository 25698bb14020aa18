import Verif.Model.Convert
import Verif.Props.Tb2j
import Verif.Props.TxtDump
import Verif.Props.Hdf5
import Verif.Lemmas.MagnonInit

/-!
# C67: converting a TB2J file
-/

set_option autoImplicit false
set_option linter.unusedSectionVars false

namespace Magnopy
namespace Convert

open H5 (Full)
open Tb2j (Top Middle Blocks Names Site Entry)

/-! ### The name of the file -/

theorem strip_no {e n : Str} (h : ¬ e <:+ n) : strip e n = n := by
  rw [strip, Str.endsWith, if_neg (by rwa [List.isSuffixOf_iff_suffix])]

theorem strip_yes (e n : Str) : strip e (n ++ e) = n := by
  rw [strip, Str.endsWith, if_pos (by rw [List.isSuffixOf_iff_suffix]; exact List.suffix_append _ _)]
  simp

/-- The format "txt" (in any case of letters) writes a text file with the given name, whatever it ends with. -/
theorem C67_text_name {out f : Str} (h : f.lower = Str.lit "txt") : target out (some f) = .ok (.text out) := by
  rw [target, formatOf, if_pos h]

/-- The format "hdf5" (in any case of letters) replaces the ending ".txt" by ".hdf5", and adds ".hdf5" if there is none. -/
theorem C67_hdf5_name {f : Str} (h : f.lower = Str.lit "hdf5") (n : Str) (h1 : ¬ Str.lit ".hdf5" <:+ n) (h2 : ¬ Str.lit ".txt" <:+ n) :
    target n (some f) = .ok (.hdf5 (n ++ Str.lit ".hdf5")) ∧
      target (n ++ Str.lit ".txt") (some f) = .ok (.hdf5 (n ++ Str.lit ".hdf5")) ∧
      target (n ++ Str.lit ".hdf5") (some f) = .ok (.hdf5 (n ++ Str.lit ".hdf5")) := by
  have d : f.lower ≠ Str.lit "txt" := by
    rw [h]
    decide +kernel
  have e : ¬ Str.lit ".txt" <:+ n ++ Str.lit ".hdf5" := by
    intro h
    have h3 : Str.lit ".hdf5" <:+ n ++ Str.lit ".hdf5" := List.suffix_append _ _
    have := List.suffix_of_suffix_length_le h h3 (by decide)
    revert this
    decide +kernel
  have t (m : Str) : target m (some f) = .ok (.hdf5 (strip (Str.lit ".hdf5") (strip (Str.lit ".txt") m) ++ Str.lit ".hdf5")) := by
    rw [target, formatOf, if_neg d, if_pos h]
  rw [t, t, t]
  refine ⟨?_, ?_, ?_⟩
  · rw [strip_no h2, strip_no h1]
  · rw [strip_yes, strip_no h1]
  · rw [strip_no e, strip_yes]

/-- Another format raises `RuntimeError`, and nothing is written. -/
theorem C67_unknown {K : Type} [Field K] [DecidableEq K] {L : Txt.Lib K} {F : Txt.Fmt K} {ls : List Str} {x : Full K}
    (hl : Tb2j.load L ls = .ok x) {out f : Str} (h1 : f.lower ≠ Str.lit "txt") (h2 : f.lower ≠ Str.lit "hdf5") (d : Disk K) :
    manager L F ls out (some f) d = .raise d .runtimeError := by
  have t : target out (some f) = .error .runtimeError := by
    rw [target, formatOf, if_neg h1, if_neg h2]
  rw [manager, hl]
  simp only [t]

/-- Without a format: HDF5 with the given name if it ends with ".hdf5", otherwise text with the given name. -/
theorem C67_guess (out : Str) : target out none = .ok (if Str.lit ".hdf5" <:+ out then .hdf5 out else .text out) := by
  have d : (Str.lit "hdf5").lower = Str.lit "hdf5" := by decide +kernel
  have d2 : (Str.lit "txt").lower = Str.lit "txt" := by decide +kernel
  have d3 : Str.lit "hdf5" ≠ Str.lit "txt" := by decide +kernel
  by_cases h : Str.lit ".hdf5" <:+ out
  · rw [if_pos h]
    obtain ⟨n, rfl⟩ := h
    have e : ¬ Str.lit ".txt" <:+ n ++ Str.lit ".hdf5" := by
      intro h
      have h3 : Str.lit ".hdf5" <:+ n ++ Str.lit ".hdf5" := List.suffix_append _ _
      have := List.suffix_of_suffix_length_le h h3 (by decide)
      revert this
      decide +kernel
    have hf : formatOf (n ++ Str.lit ".hdf5") none = Str.lit "hdf5" := by
      rw [formatOf, Str.endsWith, if_pos (by rw [List.isSuffixOf_iff_suffix]; exact List.suffix_append _ _)]
    rw [target, hf, d, if_neg d3, if_pos rfl, strip_no e, strip_yes]
  · rw [if_neg h]
    have hf : formatOf out none = Str.lit "txt" := by
      rw [formatOf, Str.endsWith, if_neg (by rwa [List.isSuffixOf_iff_suffix])]
    rw [target, hf, d2, if_pos rfl]

/-- The reader for what was written. -/
def Target.reader : Target → Reader
  | .text _ => .txt
  | .hdf5 _ => .hdf5

/-- The name of the file. -/
def Target.name : Target → Str
  | .text n => n
  | .hdf5 n => n

/-- Without formats, `load_spinham` chooses the reader for what the conversion wrote, unless the name ends with
"exchange.out". -/
theorem C67_reader_partial (out : Str) (h : ¬ Str.lit "exchange.out" <:+ out) :
    ∃ t, target out none = .ok t ∧ chooseReader t.name none = .ok t.reader := by
  refine ⟨_, C67_guess out, ?_⟩
  by_cases h1 : Str.lit ".hdf5" <:+ out
  · rw [if_pos h1]
    show chooseReader out none = .ok .hdf5
    rw [C52_guess, if_pos h1]
  · rw [if_neg h1]
    show chooseReader out none = .ok .txt
    rw [C52_guess, if_neg h1, if_neg h]

/-- A text file is written under a name which is later taken for the output of TB2J. -/
theorem C67_reader_false : ∃ out t, target out none = .ok t ∧ chooseReader t.name none ≠ .ok t.reader := by
  refine ⟨Str.lit "my_exchange.out", _, C67_guess _, ?_⟩
  decide +kernel

example : target (Str.lit "a.txt") (some (Str.lit "HDF5")) = .ok (.hdf5 (Str.lit "a.hdf5")) := by decide +kernel
example : target (Str.lit "a.hdf5") (some (Str.lit "txt")) = .ok (.text (Str.lit "a.hdf5")) := by decide +kernel

/-! ### What is written -/

section
variable {K : Type} [Field K] [LinearOrder K] [IsStrictOrderedRing K]

/-- Only the file with the name of the target may change. -/
theorem C67_others {L : Txt.Lib K} {F : Txt.Fmt K} {ls : List Str} {out : Str} {format : Option Str} {d : Disk K} :
    (manager L F ls out format d).st = d ∨ ∃ t, target out format = .ok t ∧
      (∀ m, m ≠ t.name → (manager L F ls out format d).st.text m = d.text m ∧ (manager L F ls out format d).st.hdf5 m = d.hdf5 m) ∧
      (t.reader = .txt → (manager L F ls out format d).st.hdf5 = d.hdf5) ∧
      (t.reader = .hdf5 → (manager L F ls out format d).st.text = d.text) := by
  rw [manager]
  cases Tb2j.load L ls with
  | error e => exact Or.inl rfl
  | ok x =>
    cases ht : target out format with
    | error e => exact Or.inl rfl
    | ok t =>
      simp only
      cases t with
      | text n =>
        rw [write]
        cases Txt.dumpText F {} x with
        | error e => exact Or.inl rfl
        | ok text =>
          refine Or.inr ⟨_, rfl, fun m hm => ⟨?_, rfl⟩, fun _ => rfl, fun h => by simp [Target.reader] at h⟩
          show (if m = n then some text else d.text m) = _
          rw [if_neg (by exact hm)]
      | hdf5 n =>
        refine Or.inr ⟨_, rfl, fun m hm => ⟨rfl, ?_⟩, fun h => by simp [Target.reader] at h, fun _ => rfl⟩
        show (if m = n then _ else d.hdf5 m) = _
        rw [if_neg (by exact hm)]

/-- Everything except for the bonds and the objects. -/
def rest (s : St K) : (Atom → Option K) × Option Bool × Option Bool × Option K × Option K × PyDict Atom ℕ :=
  (s.spin, s.dc, s.sn, s.ef, s.osf, s.onSite)

theorem putBond_rest (b : Bond) (r : ℕ) (s : St K) : rest (s.putBond b r) = rest s := by
  rw [St.putBond]
  simp only
  split <;> rfl

theorem addExchange_rest (n1 n2 : String) (R : Cell) (m : M3 K) (s : St K) :
    rest (St.addExchange (.name n1) (.name n2) R (.fresh m) s).st = rest s := by
  rw [St.addExchange, St.findOrAdd]
  cases s.getAtom n1 with
  | error e => rfl
  | ok A =>
    simp only [Except.map, St.findOrAdd]
    cases h : s.getAtom n2 with
    | error e => rfl
    | ok B => exact putBond_rest _ _ _

theorem add_frame {n1 n2 : Str} {R : List ℤ} {p : Tb2j.Args K} {s t : St K} (h : Tb2j.add n1 n2 R p s = .ok t) :
    rest t = rest s ∧ (s.Inv → t.Inv) := by
  rw [Tb2j.add.eq_def] at h
  split at h
  · rw [Txt.addParts] at h
    split at h
    · exact absurd h (by simp)
    · next i j k _ m hm =>
      obtain ⟨r, hr⟩ : ∃ r, r = St.addExchange (.name (String.ofList n1)) (.name (String.ofList n2)) (i, j, k) (.fresh m) s := ⟨_, rfl⟩
      rw [← hr, Res.toExcept] at h
      have ht : r.st = t := by
        cases he : r.err with
        | none => rw [he] at h; exact Except.ok.inj h
        | some e => rw [he] at h; exact absurd h (by simp)
      refine ⟨?_, fun hs => ?_⟩
      · rw [← ht, hr]
        exact addExchange_rest _ _ _ _ _
      · rw [← ht, hr]
        exact St.addExchange_inv hs _ _ _ _
  · exact absurd h (by simp)

theorem bonds_frame {L : Txt.Lib K} {n : ℕ} {ls : List Str} {s t : St K} (h : Tb2j.bonds L n ls s = .ok t) :
    rest t = rest s ∧ (s.Inv → t.Inv) := by
  induction n generalizing ls s with
  | zero =>
    rw [Tb2j.bonds.eq_def] at h
    obtain rfl := Except.ok.inj h
    exact ⟨rfl, id⟩
  | succ n ih =>
    rw [Tb2j.bonds.eq_def] at h
    simp only at h
    split at h
    · split at h
      · split at h
        · exact absurd h (by simp)
        · split at h
          · exact absurd h (by simp)
          · next hs' =>
            obtain ⟨a1, a2⟩ := add_frame hs'
            split at h
            · obtain ⟨b1, b2⟩ := ih h
              exact ⟨b1.trans a1, fun hs => b2 (a2 hs)⟩
            · obtain rfl := Except.ok.inj h
              exact ⟨a1, a2⟩
      · exact absurd h (by simp)
      · exact absurd h (by simp)
    · exact absurd h (by simp)

/-- Whatever was read from a TB2J file: no atom has a spin, and the invariants hold. -/
theorem load_frame {L : Txt.Lib K} {ls : List Str} {x : Full K} (h : Tb2j.load L ls = .ok x) :
    (∀ a, x.spinVec a = none) ∧ rest x.ham = (fun _ => none, some true, some true, some (-1), some (-1), []) ∧ x.ham.Inv ∧
      x.cone = none ∧ x.spiral = none := by
  rw [Tb2j.load] at h
  split at h
  · exact absurd h (by simp)
  · next hd line more _ =>
    split at h
    · exact absurd h (by simp)
    · next s hs =>
      have hs1 : rest s = (fun _ => none, some true, some true, some (-1), some (-1), []) ∧ s.Inv := by
        have e : "TB2J".toLower = "tb2j" := by decide +kernel
        rw [Tb2j.start] at hs
        obtain ⟨r, hr⟩ : ∃ r, r = St.setNotation (.str "TB2J") (St.empty ⟨fun _ => 0, 0⟩ (hd.atoms.mapIdx fun i d =>
            (⟨String.ofList d.name, (i : ℤ) + 1⟩ : Atom)) (fun _ => none) (fun b =>
              let v : V3 K := ((hd.atoms[(b.2.1.index - 1).toNat]?).map Tb2j.TbAtom.pos).getD 0 +
                ![(b.2.2.1 : K), (b.2.2.2.1 : K), (b.2.2.2.2 : K)] - ((hd.atoms[(b.1.index - 1).toNat]?).map Tb2j.TbAtom.pos).getD 0
              L.norm fun j => v 0 * hd.cell 0 j + v 1 * hd.cell 1 j + v 2 * hd.cell 2 j)) := ⟨_, rfl⟩
        have hrs : r.st = s := by
          have h : r.toExcept = .ok s := by rw [hr]; exact hs
          rw [Res.toExcept] at h
          cases he : r.err with
          | none => rw [he] at h; exact Except.ok.inj h
          | some e => rw [he] at h; exact absurd h (by simp)
        rw [← hrs]
        refine ⟨?_, ?_⟩
        · rw [hr, St.setNotation]
          simp only [e]
          rfl
        · rw [hr]
          exact St.setNotation_inv (St.inv_empty _ _ _ _) _
      split at h
      · exact absurd h (by simp)
      · next t ht =>
        obtain rfl := Except.ok.inj h
        have : rest t = rest s ∧ (s.Inv → t.Inv) := by
          rw [Tb2j.exchange.eq_def] at ht
          split at ht
          · obtain rfl := Except.ok.inj ht
            exact ⟨rfl, id⟩
          · exact bonds_frame ht
        exact ⟨fun _ => rfl, this.1.trans hs1.1, this.2 hs1.2, rfl, rfl⟩

/-- **C67**: the conversion of a TB2J file with at least one atom to a new group of an HDF5 file never succeeds: it raises
`ValueError` and leaves a group which cannot be loaded. -/
theorem C67_hdf5_fails {L : Txt.Lib K} {F : Txt.Fmt K} {ls : List Str} {x : Full K} (hl : Tb2j.load L ls = .ok x)
    (ha : x.ham.atoms ≠ []) {out n : Str} {format : Option Str} (ht : target out format = .ok (.hdf5 n)) {d : Disk K}
    (hd : (d.hdf5 n).get? (Str.lit "spinham") = none) :
    (manager L F ls out format d).err = some .valueError ∧
      ∀ L' : Txt.Lib K, ∃ e, H5.load L' (some (Str.lit "spinham")) ((manager L F ls out format d).st.hdf5 n) = .error e := by
  obtain ⟨a, as, ha⟩ := List.exists_cons_of_ne_nil ha
  have hsp : ∃ a ∈ x.ham.atoms, x.spinVec a = none := ⟨a, by rw [ha]; exact List.mem_cons_self, (load_frame hl).1 a⟩
  obtain ⟨h1, -, h3⟩ := H5.C64_incomplete hsp (f := d.hdf5 n) (name := Str.lit "spinham") (ow := false) (Or.inl hd)
  rw [manager, hl]
  simp only [ht, write]
  exact ⟨h1, fun L' => by simpa using h3 L'⟩

/-! ### Text -/

/-- What the text format needs besides what a TB2J file always gives. -/
theorem printable {L : Txt.Lib K} {F : Txt.Fmt K} {ls : List Str} {x : Full K} (hl : Tb2j.load L ls = .ok x)
    (ha : x.ham.atoms ≠ []) (hu : (x.ham.atoms.map Atom.name).Nodup)
    (hn : ∀ a ∈ x.ham.atoms, Txt.Plain a.name.toList ∧ ¬ ['_', '_'] <:+: a.name.toList ∧ ∀ c t, a.name.toList = c :: t → L.alnum c = true)
    (hs : ∀ b ∈ x.ham.exch.keys, ¬ (b.1 = b.2.1 ∧ b.2.2 = (0, 0, 0))) (he : L.float (F.repr (-1)) = some (-1)) :
    Txt.Printable F L x := by
  obtain ⟨-, h1, h2, h3, -⟩ := load_frame hl
  simp only [rest, Prod.mk.injEq] at h1
  obtain ⟨-, g1, g2, g3, g4, g5⟩ := h1
  refine ⟨⟨h2, hu, ?_, fun a h => (hn a h).2.1, fun _ => by rw [g2]; rfl, fun _ => by rw [g1]; rfl, fun _ => by rw [g3]; rfl,
    fun _ => by rw [g4]; rfl, fun n h => by rw [h3] at h; cases h⟩, ha, fun a h => (hn a h).1, fun a h => (hn a h).2.2, hs, ?_, ?_, ?_⟩
  · intro a h e
    exact (hn a h).1.ne (by rw [e]; rfl)
  · intro a m h
    rw [St.valO, g5] at h
    cases h
  · intro e h
    rw [g3] at h
    cases h
    exact he
  · intro e h
    rw [g4] at h
    cases h
    exact he

/-- **C67**: the conversion of a TB2J file to text succeeds, but the file which it writes cannot be loaded: reading it raises
`ValueError`. -/
theorem C67_text_fails {L : Txt.Lib K} {F : Txt.Fmt K} (h : Txt.Prints F L) (hw : L.Words) (hm : L.float ['-'] = none)
    {ls : List Str} {x : Full K} (hl : Tb2j.load L ls = .ok x) (hx : Txt.Printable F L x) {out n : Str} {format : Option Str}
    (ht : target out format = .ok (.text n)) (d : Disk K) :
    ∃ text, manager L F ls out format d = .ok { d with text := fun m => if m = n then some text else d.text m } ∧
      Txt.load L text = .error (.py .valueError) := by
  obtain ⟨a, as, ha⟩ := List.exists_cons_of_ne_nil hx.atoms
  obtain ⟨text, h1, h2⟩ := Txt.C50_no_spin h hw hm (o := {}) rfl (Or.inl rfl) hx ⟨a, by rw [ha]; exact List.mem_cons_self, (load_frame hl).1 a⟩
  refine ⟨text, ?_, h2⟩
  rw [manager, hl]
  simp only [ht, write, h1]

/-- The lines of two written atoms sections which differ in the spins. -/
def SpinsOnly (l l' : Str) : Prop := ∃ w t t' : Str, l = w ++ ' ' :: t ∧ l' = w ++ ' ' :: t' ∧ t.split = [['-'], ['-'], ['-']] ∧ t'.split.length = 3

theorem atoms_filled {F : Txt.Fmt K} {L : Txt.Lib K} (h : Txt.Prints F L) {x : Full K} (hs : ∀ a, x.spinVec a = none) (v : Atom → V3 K)
    (as : List Atom) : ∃ ts ts', Txt.atomsText F {} x as = .ok ts ∧
      Txt.atomsText F {} { x with spinVec := fun a => some (v a) } as = .ok ts' ∧ List.Forall₂ SpinsOnly ts ts' := by
  induction as with
  | nil => exact ⟨[], [], rfl, rfl, .nil⟩
  | cons a as ih =>
    obtain ⟨ts, ts', h1, h2, h3⟩ := ih
    obtain ⟨t, k1, k2⟩ := Txt.spin_line h (o := {}) rfl (none : Option (V3 K))
    obtain ⟨t', l1, l2⟩ := Txt.spin_line h (o := {}) rfl (some (v a))
    rw [Txt.atomsText, Txt.atomsText, hs, k1, h1, h2]
    simp only [l1]
    exact ⟨_, _, rfl, rfl, .cons ⟨_, t, t', rfl, rfl, k2.split, by rw [l2.split]; rfl⟩ h3⟩

/-- **C67**: whatever the spins are, writing them over the three dashes of each atom line of the converted file gives a file that is
loaded as the Hamiltonian of TB2J with these spins, up to the printed precision. -/
theorem C67_text_filled {L : Txt.Lib K} {F : Txt.Fmt K} (h : Txt.Prints F L) (hw : L.Words) {ls : List Str} {x : Full K}
    (hl : Tb2j.load L ls = .ok x) (hx : Txt.Printable F L x) {out n : Str} {format : Option Str} (ht : target out format = .ok (.text n))
    (d : Disk K) (v : Atom → V3 K) :
    ∃ text text' y, manager L F ls out format d = .ok { d with text := fun m => if m = n then some text else d.text m } ∧
      List.Forall₂ (fun l l' => l = l' ∨ SpinsOnly l l') text text' ∧ Txt.load L text' = .ok y ∧
      Txt.Near (Txt.Opts.halves {}) { x with spinVec := fun a => some (v a) } y := by
  obtain ⟨f1, f2, f3, f4, f5⟩ := load_frame hl
  have hx' : Txt.Writable F L { x with spinVec := fun a => some (v a) } :=
    { kept := ⟨hx.kept.inv, hx.kept.unique, hx.kept.named, hx.kept.plain, hx.kept.sn, hx.kept.dc, hx.kept.ef, hx.kept.osf, hx.kept.cone⟩
      atoms := hx.atoms, words := hx.words, letter := hx.letter, noSelf := hx.noSelf, symmetric := hx.symmetric, ef := hx.ef
      osf := hx.osf, spins := fun _ _ => rfl }
  obtain ⟨text', y, h1, h2, h3, -⟩ := Txt.C50_roundtrip_partial h hw (o := {}) rfl (Or.inl rfl) hx' (fun hc => by
    rw [show ({ x with spinVec := fun a => some (v a) } : Full K).cone = none from f4] at hc
    cases hc)
  obtain ⟨ts, ts', k1, k2, k3⟩ := atoms_filled h f1 v x.ham.atoms
  rw [Txt.dumpText] at h1
  simp only [k2] at h1
  cases hn : Txt.notationText F x.ham with
  | error e => rw [hn] at h1; cases h1
  | ok N =>
    rw [hn] at h1
    obtain rfl := Except.ok.inj h1
    refine ⟨F.logo ++ [Txt.separator] ++ Txt.cellText F x.cell ++ [Txt.separator, Str.lit "Atoms", Txt.atomsTitle {}] ++ ts ++
      [Txt.separator] ++ N ++ Txt.exchangeText F {} x.ham ++ Txt.onSiteText F x.ham ++
      Txt.vectorText F (Str.lit "Cone-axis absolute") x.cone ++ Txt.vectorText F (Str.lit "Spiral-vector relative") x.spiral,
      _, y, ?_, ?_, h2, h3⟩
    · rw [manager, hl]
      simp only [ht, write, Txt.dumpText, k1, hn]
    · have r : ∀ l : List Str, List.Forall₂ (fun l l' => l = l' ∨ SpinsOnly l l') l l := fun l =>
        List.forall₂_same.2 fun _ _ => Or.inl rfl
      have k : List.Forall₂ (fun l l' => l = l' ∨ SpinsOnly l l') ts ts' := k3.imp fun _ _ => Or.inr
      have app : ∀ {a b c d : List Str}, List.Forall₂ (fun l l' => l = l' ∨ SpinsOnly l l') a b →
          List.Forall₂ (fun l l' => l = l' ∨ SpinsOnly l l') c d →
          List.Forall₂ (fun l l' => l = l' ∨ SpinsOnly l l') (a ++ c) (b ++ d) := fun h1 h2 => List.rel_append h1 h2
      exact app (app (app (app (app (app (app (r _) k) (r _)) (r _)) (r _)) (r _)) (r _)) (r _)

end

/-! ### Using what was loaded -/

section
variable {K : Type} [Field K]

/-- **C67**: without spins, `Energy` of the Hamiltonian of a TB2J file with at least one bond raises `ValueError`. -/
theorem C67_energy [LinearOrder K] [IsStrictOrderedRing K] {L : Txt.Lib K} {ls : List Str} {x : Full K} (hl : Tb2j.load L ls = .ok x) (hb : x.ham.exch ≠ [])
    {order : List Atom → List Atom} (ho : ∀ l, (order l).Perm l) (cell : M3 K) (g : Atom → K) :
    EnergyObj.init order cell g x.ham = (.error .valueError, x.ham) := by
  obtain ⟨-, h1, -⟩ := load_frame hl
  simp only [rest, Prod.mk.injEq] at h1
  obtain ⟨g0, -, -, g3, -⟩ := h1
  obtain ⟨p, e, hp⟩ := List.exists_cons_of_ne_nil hb
  have hm : p.1.1 ∈ x.ham.magneticAtoms order := (EnergyObj.mem_magneticAtoms ho _).2 (Or.inl ⟨p.1, by rw [PyDict.keys, hp]; simp, Or.inl rfl⟩)
  obtain ⟨a, as, ha⟩ := List.exists_cons_of_ne_nil (List.ne_nil_of_mem hm)
  rw [EnergyObj.init, g3]
  simp only [ha, EnergyObj.mapAtoms, St.spinOf, g0]

theorem setSN_none {s : St K} (hs : s.spin = fun _ => none) (hn : s.sn = some true) (hb : s.exch ≠ []) :
    (s.setSN false).err = some .valueError := by
  obtain ⟨p, e, hp⟩ := List.exists_cons_of_ne_nil hb
  obtain ⟨b, r⟩ := p
  have hk : s.exch.keys = b :: PyDict.keys e := by rw [hp]; rfl
  have hg : s.exch.get? b = some r := by rw [hp, PyDict.get?, if_pos rfl]
  have : (s.scaleExch fun b t => (t.spinProd b.1 b.2.1).map fun x => x⁻¹) = .raise s .valueError := by
    rw [St.scaleExch, hk, forEach, St.imulBond, hg]
    simp only [St.spinProd, St.spinOf, hs, Except.map]
    rfl
  rw [St.setSN, if_pos ⟨hn, rfl⟩, this]
  rfl

theorem setNotation_none [DecidableEq K] {s : St K} (hr : s.Refer) (hs : s.spin = fun _ => none) (hd : s.dc = some true) (hn : s.sn = some true)
    (hb : s.exch ≠ []) : (s.setNotation (.str "SpinW")).err = some .valueError := by
  have e : "SpinW".toLower = "spinw" := by decide +kernel
  have hp : St.predefined (K := K) "spinw" = some (true, false, 1, 1) := by simp [St.predefined]
  rw [St.setNotation, e, hp]
  have h1 : s.setDC true = .ok (({ s with dc := some true } : St K).ensuredDC) := by
    have : ({ s with dc := some true } : St K).Refer := ⟨hr.exch, hr.site⟩
    simp only [St.setDC, hd]
    rw [if_neg (by simp), if_neg (by simp)]
    exact St.ensureDC_eq this
  obtain ⟨t, ht⟩ : ∃ t, t = ({ s with dc := some true } : St K) := ⟨_, rfl⟩
  rw [← ht] at h1
  obtain ⟨c1, -⟩ := St.collectMirrors_spec t.exch t
  have h2 : (St.setSN false t.ensuredDC).err = some .valueError := by
    apply setSN_none
    · show (St.collectMirrors t.exch t).1.spin = _
      rw [congrArg Ham.spin c1, ht]
      exact hs
    · show (St.collectMirrors t.exch t).1.sn = _
      rw [congrArg Ham.sn c1, ht]
      exact hn
    · obtain ⟨M, hM⟩ := PyDict.keys_setAll_prefix t.exch (St.collectMirrors t.exch t).2
      intro h0
      have h0 : t.exch.setAll (St.collectMirrors t.exch t).2 = [] := h0
      rw [h0] at hM
      have : t.exch.keys = [] := (List.append_eq_nil_iff.1 hM.symm).1
      rw [ht] at this
      exact hb (List.map_eq_nil_iff.1 this)
  show ((((s.setDC true).andThen (St.setSN false)).andThen (St.setEF 1)).andThen (St.setOF 1)).err = _
  rw [h1]
  have h3 : (Res.ok t.ensuredDC).andThen (St.setSN false) = St.setSN false t.ensuredDC := rfl
  rw [h3]
  obtain ⟨r, hr'⟩ : ∃ r, r = St.setSN false t.ensuredDC := ⟨_, rfl⟩
  rw [← hr'] at h2 ⊢
  have h4 : ∀ f : St K → Res (St K), r.andThen f = r := fun f => by rw [Res.andThen, h2]
  rw [h4, h4, h2]

/-- **C67**: without spins, `MagnonDispersion` of the Hamiltonian of a TB2J file with at least one bond raises `ValueError`. -/
theorem C67_magnons {L : Txt.Lib ℝ} {ls : List Str} {x : Full ℝ} (hl : Tb2j.load L ls = .ok x) (hb : x.ham.exch ≠ [])
    (order : List Atom → List Atom) (lat : M3 ℝ) (pos : Atom → V3 ℝ) (spinVec : Atom → Option (V3 ℝ)) :
    (MagnonObj.init order lat pos spinVec x.ham).1 = .error .valueError := by
  obtain ⟨-, h1, h2, -⟩ := load_frame hl
  simp only [rest, Prod.mk.injEq] at h1
  obtain ⟨g0, g1, g2, -⟩ := h1
  have := setNotation_none (St.copy_inv h2).refer (s := x.ham.copy) g0 g1 g2 (fun h => hb (List.map_eq_nil_iff.1 h))
  rw [MagnonObj.init]
  simp only [this]

end

namespace Ex
open Tb2j.Ex (top mid first)
open Txt.DumpEx (Q F Q_prints Q_words)

/-- What is read from the sample of C66. -/
theorem sample : ∃ x, Tb2j.load Q (top ++ mid ++ first) = .ok x ∧ x.ham.atoms = [⟨"Cr1", 1⟩, ⟨"Cr2", 2⟩] ∧
    x.ham.exch.keys = [(⟨"Cr1", 1⟩, ⟨"Cr2", 2⟩, (1, 0, 0)), (⟨"Cr2", 2⟩, ⟨"Cr1", 1⟩, (-1, 0, 0))] := by
  have : (match Tb2j.load Q (top ++ mid ++ first) with
      | .error _ => false
      | .ok x => decide (x.ham.atoms = [⟨"Cr1", 1⟩, ⟨"Cr2", 2⟩] ∧
          x.ham.exch.keys = [(⟨"Cr1", 1⟩, ⟨"Cr2", 2⟩, (1, 0, 0)), (⟨"Cr2", 2⟩, ⟨"Cr1", 1⟩, (-1, 0, 0))])) = true := by
    decide +kernel
  split at this
  · cases this
  · next x hx => exact ⟨x, hx, of_decide_eq_true this⟩

/-- It is printable. -/
theorem sample_printable {x : Full ℚ} (hl : Tb2j.load Q (top ++ mid ++ first) = .ok x)
    (ha : x.ham.atoms = [⟨"Cr1", 1⟩, ⟨"Cr2", 2⟩])
    (hk : x.ham.exch.keys = [(⟨"Cr1", 1⟩, ⟨"Cr2", 2⟩, (1, 0, 0)), (⟨"Cr2", 2⟩, ⟨"Cr1", 1⟩, (-1, 0, 0))]) : Txt.Printable F Q x := by
  refine printable hl (by rw [ha]; simp) (by rw [ha]; decide +kernel) ?_ (by rw [hk]; decide +kernel) (by decide +kernel)
  intro a h
  rw [ha] at h
  simp only [List.mem_cons, List.not_mem_nil, or_false] at h
  rcases h with rfl | rfl
  · refine ⟨⟨by decide +kernel, by decide +kernel, by decide +kernel⟩, by decide +kernel, fun c t e => ?_⟩
    cases (show ['C', 'r', '1'] = c :: t from e)
    rfl
  · refine ⟨⟨by decide +kernel, by decide +kernel, by decide +kernel⟩, by decide +kernel, fun c t e => ?_⟩
    cases (show ['C', 'r', '2'] = c :: t from e)
    rfl

/-- The sample is converted to text which cannot be loaded; with the spins (0, 0, 1) and (0, 0, -1) in place of the dashes it is
loaded as a Hamiltonian with the atoms Cr1 and Cr2. -/
example (d : Disk ℚ) : ∃ text text' y, (manager Q F (top ++ mid ++ first) (Str.lit "o.txt") none d).st.text (Str.lit "o.txt") = some text ∧
    Txt.load Q text = .error (.py .valueError) ∧ List.Forall₂ (fun l l' => l = l' ∨ SpinsOnly l l') text text' ∧
    Txt.load Q text' = .ok y ∧ y.ham.atoms.map Atom.name = ["Cr1", "Cr2"] := by
  obtain ⟨x, hl, ha, hk⟩ := sample
  have hx := sample_printable hl ha hk
  have ht : target (Str.lit "o.txt") none = .ok (.text (Str.lit "o.txt")) := by decide +kernel
  obtain ⟨t, h1, h2⟩ := C67_text_fails Q_prints Q_words (by decide +kernel) hl hx ht d
  obtain ⟨t0, t', y, g1, g2, g3, g4⟩ := C67_text_filled Q_prints Q_words hl hx ht d
    (fun a => if a.index = 1 then ![0, 0, 1] else ![0, 0, -1])
  have e : t0 = t := by
    rw [h1] at g1
    have := congrArg (fun r : Res (Disk ℚ) => r.st.text (Str.lit "o.txt")) g1
    simpa using this.symm
  subst e
  refine ⟨t0, t', y, by rw [h1]; simp, h2, g2, g3, ?_⟩
  rw [g4.names]
  show x.ham.atoms.map Atom.name = _
  rw [ha]
  decide +kernel

example (d : Disk ℚ) (hd : (d.hdf5 (Str.lit "o.hdf5")).get? (Str.lit "spinham") = none) :
    (manager Q F (top ++ mid ++ first) (Str.lit "o.hdf5") none d).err = some .valueError := by
  obtain ⟨x, hl, ha, -⟩ := sample
  exact (C67_hdf5_fails hl (by rw [ha]; simp) (n := Str.lit "o.hdf5") (by decide +kernel) hd).1

example : ∃ x, Tb2j.load Q (top ++ mid ++ first) = .ok x ∧ EnergyObj.init id 1 (fun _ => 2) x.ham = (.error .valueError, x.ham) := by
  obtain ⟨x, hl, ha, hk⟩ := sample
  exact ⟨x, hl, C67_energy hl (fun h => by rw [h] at hk; cases hk) (fun _ => .refl _) _ _⟩

/-! The second block of the sample, over the real numbers. -/

theorem unsigned_cast {w : Str} {q : ℚ} (h : Txt.unsignedOf w = some q) : Txt.unsignedOf w = some (q : ℝ) := by
  simp only [Txt.unsignedOf] at h ⊢
  split at h
  · next hc =>
    rw [if_pos hc]
    obtain rfl := Option.some.inj h
    push_cast
    rfl
  · cases h

theorem real_float {w : Str} {q : ℚ} (h : Q.float w = some q) : Txt.DumpEx.R.float w = some (q : ℝ) := by
  change Txt.decimalOf w.lower = some q at h
  show Txt.decimalOf w.lower = some (q : ℝ)
  generalize w.lower = u at h ⊢
  rw [Txt.decimalOf.eq_def] at h ⊢
  split at h
  · cases hu : (Txt.unsignedOf _ : Option ℚ) with
    | none => rw [hu] at h; cases h
    | some v =>
      rw [hu] at h
      obtain rfl := Option.some.inj h
      rw [unsigned_cast hu]
      simp
  · exact unsigned_cast h

theorem real_numbers {a b c : Str} {x y z : ℚ} (h1 : Q.float a = some x) (h2 : Q.float b = some y) (h3 : Q.float c = some z) :
    Numbers Txt.DumpEx.R [a, b, c] [(x : ℝ), (y : ℝ), (z : ℝ)] :=
  .cons (real_float h1) (.cons (real_float h2) (.cons (real_float h3) .nil))

theorem real_top : Top Txt.DumpEx.R top (Tb2j.Ex.cell.map fun q : ℚ => (q : ℝ)) (Tb2j.Ex.sites.map fun s => ⟨s.name, fun i => (s.pos i : ℝ), s.charge.map fun q => (q : ℝ)⟩) := by
  refine ⟨["====".toList], "Cell (Angstrom):".toList, "2.0 0.0 0.0".toList, "0.0 4.0 0.0".toList, "1.0 0.0 5.0".toList, ["====".toList],
    "Atoms:".toList, "(Note: charges)".toList, "Atom x y z w_charge M(x) M(y) M(z)".toList,
    ["Cr1 1.0 2.0 0.0 4.5 0.0 0.0 3.0".toList, "Cr2 0.5 0.0 2.5".toList], rfl, by decide +kernel, by decide +kernel, ?_, ?_, ?_,
    by decide +kernel, by decide +kernel, .cons ?_ (.cons ?_ .nil)⟩
  · have : Str.split "2.0 0.0 0.0".toList = ["2.0".toList, "0.0".toList, "0.0".toList] := by decide +kernel
    rw [this]
    exact real_numbers (by decide +kernel) (by decide +kernel) (by decide +kernel)
  · have : Str.split "0.0 4.0 0.0".toList = ["0.0".toList, "4.0".toList, "0.0".toList] := by decide +kernel
    rw [this]
    exact real_numbers (by decide +kernel) (by decide +kernel) (by decide +kernel)
  · have : Str.split "1.0 0.0 5.0".toList = ["1.0".toList, "0.0".toList, "5.0".toList] := by decide +kernel
    rw [this]
    exact real_numbers (by decide +kernel) (by decide +kernel) (by decide +kernel)
  · refine ⟨by decide +kernel, "1.0".toList, "2.0".toList, "0.0".toList, ["4.5".toList, "0.0".toList, "0.0".toList, "3.0".toList],
      by decide +kernel, real_numbers (by decide +kernel) (by decide +kernel) (by decide +kernel),
      Or.inr ⟨"4.5".toList, ["0.0".toList, "0.0".toList, "3.0".toList], rfl, ⟨_, real_float (q := 9 / 2) (by decide +kernel), rfl⟩,
        Or.inr ⟨[(0 : ℚ), (0 : ℚ), (3 : ℚ)], real_numbers (by decide +kernel) (by decide +kernel) (by decide +kernel)⟩⟩⟩
  · exact ⟨by decide +kernel, "0.5".toList, "0.0".toList, "2.5".toList, [], by decide +kernel,
      real_numbers (by decide +kernel) (by decide +kernel) (by decide +kernel), Or.inl ⟨rfl, rfl⟩⟩

theorem real_block : Blocks Txt.DumpEx.R Tb2j.Ex.second [⟨"Cr2".toList, "Cr1".toList, (-1, 0, 0), [.iso ((7 : ℚ) : ℝ)]⟩] :=
  .last ⟨"-1".toList, ['0'], ['0'], ["7.0".toList, "1.0".toList, "1.0".toList, "1.0".toList, "1.5".toList], "1.5".toList, by decide +kernel,
      by decide +kernel, by decide +kernel, by decide +kernel, rfl, by rw [real_float (q := 3 / 2) (by decide +kernel)]; rfl, by decide +kernel⟩
    (.iso (w := "7.0".toList) (ws := ["J_iso:".toList]) (by decide +kernel) (by decide +kernel) (by decide +kernel) (by decide +kernel)
      (by decide +kernel) (real_float (by decide +kernel)) .nil)

example : ∃ x, Tb2j.load Txt.DumpEx.R (top ++ mid ++ Tb2j.Ex.second) = .ok x ∧
    (MagnonObj.init id 1 (fun _ => 0) x.spinVec x.ham).1 = .error .valueError := by
  have hd : (Tb2j.Ex.cell.map fun q : ℚ => (q : ℝ)).det ≠ 0 := by
    have := RingHom.map_det (Rat.castHom ℝ) Tb2j.Ex.cell
    intro h
    apply Tb2j.Ex.det_ok
    have h' : (Rat.castHom ℝ) Tb2j.Ex.cell.det = 0 := this.trans h
    simpa using h'
  obtain ⟨x, h1, -, h3, h4, -, -, -, h8, -⟩ := Tb2j.C66_load real_top Tb2j.Ex.mid_ok real_block hd
    ⟨by decide +kernel, fun a ha => by
      obtain ⟨b, hb, rfl⟩ := List.mem_map.1 ha
      exact Tb2j.Ex.names_ok.2 b hb⟩ (by
      intro e he
      rw [List.mem_singleton] at he
      subst he
      exact ⟨by decide +kernel, by decide +kernel⟩)
  refine ⟨x, h1, C67_magnons h1 ?_ _ _ _ _⟩
  obtain ⟨A, a1, a2, -⟩ := h4 0 _ rfl
  obtain ⟨B, b1, b2, -⟩ := h4 1 _ rfl
  have := h8 B (List.mem_of_getElem? b1) A (List.mem_of_getElem? a1) (-1, 0, 0)
  intro h0
  rw [St.valE, h0, a2, b2] at this
  have h5 : (none : Option (M3 ℝ)).isSome = true := by
    rw [show (none : Option (M3 ℝ)) = _ from this]
    rfl
  cases h5

end Ex

end Convert
end Magnopy
