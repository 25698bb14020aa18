import Verif.Lemmas.VampireFiles
import Verif.Props.VampireText

/-!
# Property C82: the .mat file, the input file and `dump_vampire`
-/

set_option autoImplicit false
set_option linter.unusedSectionVars false

namespace Magnopy

open Vampire
open History (NumFmt joinLines Reads)

section
variable {K : Type} [Field K] [LinearOrder K] {F : NumFmt K} {repr : K → Str} {float : Str → Option K}

theorem Vampire.materialCount_eq (materials : Option (List ℤ)) (n : ℕ) (h : ∀ m, materials = some m → m ≠ []) :
    ∃ c, materialCount materials n = .ok c ∧ match materials with
      | none => c = n
      | some m => (∃ x ∈ m, c = x + 1) ∧ ∀ x ∈ m, x + 1 ≤ c := by
  cases materials with
  | none => exact ⟨n, rfl, rfl⟩
  | some m =>
    cases hx : m.max? with
    | none => exact absurd (List.max?_eq_none_iff.1 hx) (h m rfl)
    | some x =>
      have hmax := List.max?_eq_some_iff.1 hx
      refine ⟨x + 1, by simp [materialCount, hx], ⟨x, hmax.1, rfl⟩, fun y hy => ?_⟩
      have := hmax.2 y hy
      omega

theorem Vampire.yields_count (n : ℤ) :
    Yields [Str.lit "material:num-materials = " ++ intStr n] [(Str.lit "material:num-materials", intStr n)] := by
  have e : Str.lit "material:num-materials = " ++ intStr n = Str.lit "material:num-materials " ++ '=' :: (' ' :: intStr n) := rfl
  rw [e]
  have hp := intStr_plain n
  have hx : '!' ∉ intStr n := intStr_no (by decide) (by decide) n
  have hv := neat_value ⟨plain_noBreak hp, hp.hash, hx, strip_of hp.space⟩
  exact yields_entry (by decide) (by decide) (by decide) (by decide) (by decide) hv.1 hv.2

/-- **C82, the .mat file.** If the atoms that stand for a material have spins, and their names and types can be values, the text
of `dump_mat` is a list of keys with values, no key twice: the number of materials and, for every material of a magnetic atom,
name, element, spin (exact), direction (eight digits, or `random` if there is none), damping and anisotropy of the first atom
with that material, under the number in the .UCF file plus one. -/
theorem C82_mat_partial (hR : ReadsMat F repr float) (env : Logo.Env) (henv : ∀ x ∈ env.standard true, '\n' ∉ x)
    (info : AtomInfo K) (order : List Atom → List Atom) (materials : Option (List ℤ)) (nologo : Bool) (sp : Atom → K) (s : St K)
    (hm : ∀ m, materials = some m → m ≠ [] ∧ (s.magneticAtoms order).length ≤ m.length)
    (hsp : ∀ (n : ℕ) a, (s.magneticAtoms order)[n]? = some a → FirstAt materials n → s.spin a = some (sp a))
    (hname : ∀ a ∈ s.magneticAtoms order, Neat a.name.toList ∧ Neat (info.type a)) :
    ∃ text keys count, matText F repr env info order materials nologo s = .ok text ∧ readSettings text = some keys ∧
      (keys.map Prod.fst).Nodup ∧
      (valueOf keys (Str.lit "material:num-materials")).bind readInt = some count ∧
      (match materials with
        | none => count = (s.magneticAtoms order).length
        | some m => (∃ x ∈ m, count = x + 1) ∧ ∀ x ∈ m, x + 1 ≤ count) ∧
      (∀ (n : ℕ) a, (s.magneticAtoms order)[n]? = some a → FirstAt materials n →
        Describes float info keys (materialAt materials n + 1) a (sp a)) ∧
      ∀ k ∈ keys.map Prod.fst, k = Str.lit "material:num-materials" ∨ ∃ (n : ℕ) (a : Atom) (w : String),
        (s.magneticAtoms order)[n]? = some a ∧ FirstAt materials n ∧ w ∈ materialProperties ∧
          k = materialKey (materialAt materials n + 1) w := by
  obtain ⟨l, hl, hly⟩ := logo_yields (nologo := nologo) henv
  obtain ⟨c, hc, hcount⟩ := materialCount_eq materials (s.magneticAtoms order).length fun m e => (hm m e).1
  have hmem := fun k a => mem_blocksOf materials 0 (s.magneticAtoms order) k a
  simp only [Nat.zero_add] at hmem
  have hml := matLines_ok (F := F) (repr := repr) (info := info) materials s sp 0 (s.magneticAtoms order)
    (fun m e => by have := (hm m e).2; omega) (fun p hp => by
      obtain ⟨n, h1, h2, -⟩ := (hmem p.1 p.2).1 hp
      exact hsp n p.2 h1 h2)
  have hy : Yields (l ++ [Str.lit "material:num-materials = " ++ intStr c] ++
      ((blocksOf materials 0 (s.magneticAtoms order)).flatMap fun p => blockText F repr info p.1 p.2 (sp p.2)) ++ [rule])
      (matKeys F repr info c (blocksOf materials 0 (s.magneticAtoms order)) sp) := by
    have := ((hly.append (yields_count c)).append (Yields.flatMap (blocksOf materials 0 (s.magneticAtoms order))
      (f := fun p => blockText F repr info p.1 p.2 (sp p.2)) (g := fun p => blockKeys F repr info p.1 p.2 (sp p.2))
      fun p hp => by
        obtain ⟨n, h1, -, -⟩ := (hmem p.1 p.2).1 hp
        have hn := hname p.2 (List.mem_of_getElem? h1)
        exact yields_block hR p.1 p.2 _ hn.1 hn.2)).append yields_rule
    rw [List.append_nil] at this
    exact this
  have hnd : ((matKeys F repr info c (blocksOf materials 0 (s.magneticAtoms order)) sp).map Prod.fst).Nodup :=
    matKeys_nodup c _ (blocksOf_nodup materials 0 _) sp
  refine ⟨_, _, c, by rw [matText, hl, hc]; simp only [hml], hy.read (by simp), hnd, ?_, ?_, fun n a h1 h2 => ?_, fun k hk => ?_⟩
  · rw [valueOf_mem hnd (by rw [matKeys]; exact List.mem_cons_self), Option.bind_some, readInt_intStr]
  · cases materials <;> exact hcount
  · have hb := (hmem _ _).2 ⟨n, h1, h2, rfl⟩
    have hin : ∀ p ∈ blockKeys F repr info (materialAt materials n + 1) a (sp a),
        valueOf (matKeys F repr info c (blocksOf materials 0 (s.magneticAtoms order)) sp) p.1 = some p.2 := fun p hp =>
      valueOf_mem hnd (by rw [matKeys]; exact List.mem_cons_of_mem _ (List.mem_flatMap.2 ⟨_, hb, hp⟩))
    simp only [blockKeys, List.mem_cons, List.not_mem_nil, or_false, forall_eq_or_imp, forall_eq] at hin
    obtain ⟨k1, k2, k3, k4, k5, k6⟩ := hin
    exact ⟨k1, k2, by rw [k3, Option.bind_some, (hR.repr (sp a)).2.2], fun h => by rw [k4, h]; rfl,
      fun v h => ⟨_, by rw [k4, h, Option.bind_some, direction_read hR], fun c => fix_near hR.reads _⟩, k5, k6⟩
  · rw [matKeys, List.map_cons, List.mem_cons, List.map_flatMap] at hk
    rcases hk with hk | hk
    · exact .inl hk
    · obtain ⟨⟨q, a⟩, hq, hk⟩ := List.mem_flatMap.1 hk
      rw [blockKeys_fst] at hk
      obtain ⟨w, hw, rfl⟩ := List.mem_map.1 hk
      obtain ⟨n, h1, h2, rfl⟩ := (hmem q a).1 hq
      exact .inr ⟨n, a, w, h1, h2, hw, rfl⟩

/-- **C82, missing spins.** If an atom that stands for a material has no spin, `dump_mat` raises `ValueError`. -/
theorem C82_spin (env : Logo.Env) (henv : ∀ x ∈ env.standard true, '\n' ∉ x)
    (info : AtomInfo K) (order : List Atom → List Atom) (materials : Option (List ℤ)) (nologo : Bool) (s : St K)
    (hm : ∀ m, materials = some m → m ≠ [] ∧ (s.magneticAtoms order).length ≤ m.length)
    (n : ℕ) (a : Atom) (ha : (s.magneticAtoms order)[n]? = some a) (hfirst : FirstAt materials n) (h0 : s.spin a = none) :
    matText F repr env info order materials nologo s = .error .valueError := by
  obtain ⟨l, hl, -⟩ := logo_yields (nologo := nologo) henv
  obtain ⟨c, hc, -⟩ := materialCount_eq materials (s.magneticAtoms order).length fun m e => (hm m e).1
  rw [matText, hl, hc]
  simp only
  rw [matLines_err materials s 0 _ (fun m e => by have := (hm m e).2; omega)
    ⟨_, (mem_blocksOf materials 0 _ _ a).2 ⟨n, ha, by simpa using hfirst, rfl⟩, h0⟩]

theorem Vampire.strip_ends {w : Str} (h1 : ∀ c, w.head? = some c → Str.isSpace c = false)
    (h2 : ∀ c, w.getLast? = some c → Str.isSpace c = false) : Str.strip w = w := by
  have key : ∀ v : Str, (∀ c, v.head? = some c → Str.isSpace c = false) → Str.lstrip v = v := by
    intro v hv
    cases v with
    | nil => rfl
    | cons c v => rw [Str.lstrip, List.dropWhile_cons_of_neg (by rw [hv c rfl]; simp)]
  rw [Str.strip, key w h1, key w.reverse (by rw [List.head?_reverse]; exact h2), List.reverse_reverse]

theorem Vampire.seed_neat {seed : Str} (h1 : '\n' ∉ seed) (h2 : '#' ∉ seed) (h3 : '!' ∉ seed)
    (h4 : ∀ c, seed.head? = some c → Str.isSpace c = false) (c : Char) (e : Str)
    (he : ∀ x ∈ '.' :: e ++ [c], x ≠ '\n' ∧ x ≠ '#' ∧ x ≠ '!' ∧ Str.isSpace x = false) : Neat (seed ++ ('.' :: e ++ [c])) := by
  refine ⟨?_, ?_, ?_, strip_ends ?_ ?_⟩
  · rw [List.mem_append, not_or]; exact ⟨h1, fun h => (he _ h).1 rfl⟩
  · rw [List.mem_append, not_or]; exact ⟨h2, fun h => (he _ h).2.1 rfl⟩
  · rw [List.mem_append, not_or]; exact ⟨h3, fun h => (he _ h).2.2.1 rfl⟩
  · intro x hx
    cases seed with
    | nil => exact (he x (List.mem_of_mem_head? hx)).2.2.2
    | cons y seed => exact h4 x hx
  · intro x hx
    rw [← List.append_assoc, List.getLast?_append] at hx
    simp only [List.getLast?_singleton, Option.some_or, Option.some.injEq] at hx
    exact hx ▸ (he c (by simp)).2.2.2

/-- The input file names the two other files. -/
theorem Vampire.input_read (env : Logo.Env) (henv : ∀ x ∈ env.standard true, '\n' ∉ x) (nologo : Bool) {seed : Str}
    (h1 : '\n' ∉ seed) (h2 : '#' ∉ seed) (h3 : '!' ∉ seed) (h4 : ∀ c, seed.head? = some c → Str.isSpace c = false) :
    ∃ text, inputText env seed nologo = .ok text ∧ readSettings text = some [
      (Str.lit "material:file", seed ++ Str.lit ".mat"), (Str.lit "material:unit-cell-file", seed ++ Str.lit ".UCF")] := by
  obtain ⟨l, hl, hly⟩ := logo_yields (nologo := nologo) henv
  have hmat : Neat (seed ++ Str.lit ".mat") := seed_neat h1 h2 h3 h4 't' (Str.lit "ma") (by decide)
  have hucf : Neat (seed ++ Str.lit ".UCF") := seed_neat h1 h2 h3 h4 'F' (Str.lit "UC") (by decide)
  refine ⟨_, by rw [inputText, hl], Yields.read (hly.append (.skip (yields_hash (by decide) (by decide))
    (.entry ?_ (.entry ?_ (.skip (yields_hash (by decide) (by decide)) (yields_hash (by decide) (by decide))))))) (by simp)⟩
  · have e : Str.lit "material:file=" ++ seed ++ Str.lit ".mat" = Str.lit "material:file" ++ '=' :: (seed ++ Str.lit ".mat") := by
      rw [List.append_assoc]; rfl
    rw [e]
    exact yields_entry (by decide) (by decide) (by decide) (by decide) (by decide) hmat.1
      (by rw [uncomment_of hmat.2.1 hmat.2.2.1, hmat.2.2.2])
  · have e : Str.lit "material:unit-cell-file = " ++ seed ++ Str.lit ".UCF" =
        Str.lit "material:unit-cell-file " ++ '=' :: (' ' :: (seed ++ Str.lit ".UCF")) := by
      rw [List.append_assoc]; rfl
    rw [e]
    exact yields_entry (by decide) (by decide) (by decide) (by decide) (by decide) (neat_value hucf).1 (neat_value hucf).2

theorem Vampire.exists_first (materials : Option (List ℤ)) (n : ℕ) :
    ∃ n' ≤ n, FirstAt materials n' ∧ materialAt materials n' = materialAt materials n := by
  classical
  have h : ∃ k, materialAt materials k = materialAt materials n := ⟨n, rfl⟩
  refine ⟨Nat.find h, Nat.find_le rfl, fun k hk => ?_, Nat.find_spec h⟩
  rw [Nat.find_spec h]
  exact Nat.find_min h hk

theorem Vampire.ext_ne {seed : Str} : seed ++ Str.lit ".UCF" ≠ seed ++ Str.lit ".mat" ∧
    Str.lit "input" ≠ seed ++ Str.lit ".UCF" ∧ Str.lit "input" ≠ seed ++ Str.lit ".mat" := by
  refine ⟨fun h => absurd (List.append_cancel_left h) (by decide), fun h => ?_, fun h => ?_⟩
  · have := congrArg (fun l : Str => l.reverse[2]?) h
    simp only [List.reverse_append] at this
    rw [List.getElem?_append_left (by decide)] at this
    exact absurd this (by decide)
  · have := congrArg (fun l : Str => l.reverse[2]?) h
    simp only [List.reverse_append] at this
    rw [List.getElem?_append_left (by decide)] at this
    exact absurd this (by decide)

/-- **C82, the export.** `dump_vampire` writes three files, changes no other file and leaves the Hamiltonian as it was; the input
file names the two others; the .UCF file is that of C81, and for every atom of the .UCF file with material `m` the .mat file
describes the first atom with this material under the number `m + 1`. -/
theorem C82_vampire_partial (hR : ReadsMat F repr float) (h2 : (2 : K) ≠ 0) (env : Logo.Env)
    (henv : ∀ x ∈ env.standard true, '\n' ∉ x) (geo : Geometry K) (info : AtomInfo K)
    (order : List Atom → List Atom) (hord : ∀ l, (order l).Perm l) (energy : K) (mask : Mask K)
    (decimals : ℕ) (materials : Option (List ℤ)) (nologo : Bool) (seed : Str) (w : Files) (sp : Atom → K) (s : St K)
    (hs : s.Paired) (hsp : s.Spins sp) (hc : s.Complete)
    (hm : ∀ m, materials = some m → m ≠ [] ∧ (s.magneticAtoms order).length ≤ m.length)
    (hname : ∀ a ∈ s.magneticAtoms order, Neat a.name.toList ∧ Neat (info.type a))
    (h3 : '\n' ∉ seed) (h4 : '#' ∉ seed) (h5 : '!' ∉ seed) (h6 : ∀ c, seed.head? = some c → Str.isSpace c = false) :
    ∃ t w' ucf mat input f keys,
      dumpVampire F repr env geo info order energy mask decimals materials nologo seed s w = (none, t, w') ∧ TurnedHam s t ∧
      w' (seed ++ Str.lit ".UCF") = some ucf ∧ w' (seed ++ Str.lit ".mat") = some mat ∧ w' (Str.lit "input") = some input ∧
      (∀ n, n ≠ seed ++ Str.lit ".UCF" → n ≠ seed ++ Str.lit ".mat" → n ≠ Str.lit "input" → w' n = w n) ∧
      ucfText F env geo order energy mask decimals materials nologo s = (.ok ucf, t) ∧
      matText F repr env info order materials nologo s = .ok mat ∧
      readSettings input = some [(Str.lit "material:file", seed ++ Str.lit ".mat"),
        (Str.lit "material:unit-cell-file", seed ++ Str.lit ".UCF")] ∧
      readUcf float ucf = some f ∧ readSettings mat = some keys ∧
      ∀ (k : ℕ) i p m, f.atoms[k]? = some (i, p, m) → i = k ∧ m = materialAt materials k ∧ ∃ (n : ℕ) (a : Atom), n ≤ k ∧
        (s.magneticAtoms order)[n]? = some a ∧ FirstAt materials n ∧ materialAt materials n = m ∧
        Describes float info keys (m + 1) a (sp a) := by
  obtain ⟨d, n, e, o, hn, he, ho⟩ := hc
  have hc : s.Complete := ⟨d, n, e, o, hn, he, ho⟩
  have hm' : ∀ m, materials = some m → (s.magneticAtoms order).length ≤ m.length := fun m e => (hm m e).2
  obtain ⟨ucf, t, f, g1, g2, g3, -, -, -, g4, g5, -⟩ := C81_text_partial hR.reads h2 env henv geo order hord energy mask decimals
    materials nologo sp s hs hsp d n e o hn he ho hm'
  obtain ⟨u, t', v, items, hd⟩ := dump_spec Unit h2 hord energy mask materials hs hsp hc hm'
  obtain ⟨u', l, hu', -, -⟩ := ucfText_ok g1
  have ht : t' = t := by
    have := hd.dump.symm.trans hu'
    simp only [Prod.mk.injEq] at this
    exact this.2
  subst ht
  have hin : ∀ (n : ℕ) a, (s.magneticAtoms order)[n]? = some a → a ∈ s.atoms := fun n a h => by
    have := List.mem_of_getElem? h
    rw [EnergyObj.mem_magneticAtoms hord] at this
    rcases this with ⟨b, hb, rfl | rfl⟩ | ha
    · exact (hs.refer.exch b hb).1
    · exact (hs.refer.exch b hb).2
    · exact hs.refer.site a ha
  have hmatT : matText F repr env info order materials nologo t' = matText F repr env info order materials nologo s := by
    obtain ⟨l, hl, -⟩ := logo_yields (nologo := nologo) henv
    have hmem := fun k a => mem_blocksOf materials 0 (s.magneticAtoms order) k a
    simp only [Nat.zero_add] at hmem
    rw [matText, matText, hd.after]
    rw [matLines_ok materials t' sp 0 (s.magneticAtoms order) (fun m e => by have := hm' m e; omega) (fun p hp => by
        obtain ⟨n, h1, -, -⟩ := (hmem p.1 p.2).1 hp
        exact (hd.spins p.2 (by rw [hd.turned.atoms]; exact hin n p.2 h1)).1),
      matLines_ok materials s sp 0 (s.magneticAtoms order) (fun m e => by have := hm' m e; omega) (fun p hp => by
        obtain ⟨n, h1, -, -⟩ := (hmem p.1 p.2).1 hp
        exact (hsp p.2 (hin n p.2 h1)).1)]
  obtain ⟨mat, keys, c, k1, k2, -, -, -, k3, -⟩ := C82_mat_partial hR env henv info order materials nologo sp s hm
    (fun n a h _ => (hsp a (hin n a h)).1) hname
  obtain ⟨input, i1, i2⟩ := input_read env henv nologo h3 h4 h5 h6
  obtain ⟨e1, e2, e3⟩ := ext_ne (seed := seed)
  refine ⟨t', ((w.write (seed ++ Str.lit ".UCF") ucf).write (seed ++ Str.lit ".mat") mat).write (Str.lit "input") input,
    ucf, mat, input, f, keys, ?_, g2, ?_, ?_, ?_, fun n n1 n2 n3 => ?_, g1, k1, i2, g3, k2, fun k i p m hk => ?_⟩
  · rw [dumpVampire, g1]
    simp only [hmatT, k1, i1]
  · simp only [Files.write, if_neg e2.symm, if_neg e1, if_true]
  · simp only [Files.write, if_neg e3.symm, if_true]
  · simp only [Files.write, if_true]
  · simp only [Files.write, if_neg n1, if_neg n2, if_neg n3]
  · have hlt : k < (s.magneticAtoms order).length := by
      rw [← g4]
      exact (List.getElem?_eq_some_iff.1 hk).1
    obtain ⟨p', hp', -⟩ := g5 k _ (List.getElem?_eq_getElem hlt)
    rw [hk] at hp'
    simp only [Option.some.injEq, Prod.mk.injEq] at hp'
    obtain ⟨rfl, -, rfl⟩ := hp'
    have hmk : (match materials with
        | none => (i : ℤ)
        | some m => (m[i]?).getD 0) = materialAt materials i := by cases materials <;> rfl
    obtain ⟨n', hle, hf, he'⟩ := exists_first materials i
    have ha := List.getElem?_eq_getElem (l := s.magneticAtoms order) (i := n') (by omega)
    refine ⟨rfl, by cases materials <;> rfl, n', _, hle, ha, hf, ?_, ?_⟩
    · rw [he']; cases materials <;> rfl
    · have := k3 n' _ ha hf
      rw [he'] at this
      cases materials <;> exact this

end

/-! ### What is false -/

namespace VampireFilesExample

open VampireExample HistoryExample DictExample NotationExample IterExample VampireTextExample
open History (decimal sciOf decimal_reads)

/-- A Hamiltonian in the convention of Vampire whose atoms have no spins. -/
def spinless : St ℚ := runOps [.setNotation (.str "vampire"), .addExchange (.atom fe1) (.atom fe2) (1, 0, 0) (.fresh mB)]
  (St.empty ⟨fun _ => 0, 0⟩ [fe1, fe2] (fun _ => none) (fun _ => 1))

/-- A fraction is written. -/
def fraction (x : ℚ) : Str := intStr x.num ++ '/' :: natStr x.den

/-- Decimal numbers and fractions are read. -/
def numberOf (w : Str) : Option ℚ :=
  match w.dropWhile (· ≠ '/') with
  | [] => sciOf w
  | _ :: d => (readInt (w.takeWhile (· ≠ '/'))).bind fun n => (readNat d).map fun k : ℕ => (n : ℚ) / k

end VampireFilesExample

open VampireFilesExample VampireExample HistoryExample DictExample NotationExample in
/-- **C82 is false of the code (files are written together or not at all).** For this Hamiltonian with a complete notation
`dump_vampire` raises `ValueError`, because the .mat file needs the spins, but the .UCF file has been written and the other two
have not. -/
theorem C82_together_false (F : NumFmt ℚ) (repr : ℚ → Str) (env : Logo.Env) (henv : ∀ x ∈ env.standard true, '\n' ∉ x)
    (geo : Geometry ℚ) (info : AtomInfo ℚ) (decimals : ℕ) (nologo : Bool) (seed : Str) (w : Files) :
    spinless.Complete ∧ ∃ t ucf, dumpVampire F repr env geo info id 1 full decimals none nologo seed spinless w =
      (some .valueError, t, w.write (seed ++ Str.lit ".UCF") ucf) := by
  refine ⟨⟨true, true, -(1 / 2), -1, by decide +kernel, by norm_num, by norm_num⟩, ?_⟩
  obtain ⟨u, hu⟩ : ∃ u, (dumpUcf id 1 full none spinless).1 = .ok u := by
    have h : (dumpUcf id 1 full none spinless).1.toOption.isSome = true := by decide +kernel
    cases hx : (dumpUcf id 1 full none spinless).1 with
    | error e => rw [hx] at h; exact absurd h (by simp [Except.toOption])
    | ok u => exact ⟨u, rfl⟩
  have hat : (St.magneticAtoms id (dumpUcf id 1 full none spinless).2)[0]? = some fe1 := by decide +kernel
  have hsp : (dumpUcf id 1 full none spinless).2.spin fe1 = none := by decide +kernel
  obtain ⟨t, ht⟩ : ∃ t, t = (dumpUcf id 1 full none spinless).2 := ⟨_, rfl⟩
  rw [← ht] at hat hsp
  have hd : dumpUcf id 1 full none spinless = (.ok u, t) := Prod.ext hu ht.symm
  obtain ⟨l, hl, -⟩ := logo_words (nologo := nologo) henv
  have hmat := C82_spin (F := F) (repr := repr) env henv info id none nologo t (fun m h => by cases h) 0 fe1 hat
    (fun n h => absurd h (by omega)) hsp
  refine ⟨t, joinLines (l ++ ucfLines F geo decimals u), ?_⟩
  have hucf : ucfText F env geo id 1 full decimals none nologo spinless = (.ok (joinLines (l ++ ucfLines F geo decimals u)), t) := by
    rw [ucfText, hd]
    simp only [hl]
  rw [dumpVampire, hucf]
  simp only [hmat]

/-- **C82 is false of the code (the input file names the other files)** for a seed name that starts with a space, which a reader of
`key=value` drops. -/
theorem C82_seed_false (env : Logo.Env) :
    ¬ ∀ seed : Str, '\n' ∉ seed → ∃ text, inputText env seed true = .ok text ∧
      (readSettings text).bind (fun keys => valueOf keys (Str.lit "material:file")) = some (seed ++ Str.lit ".mat") := by
  intro h
  obtain ⟨text, h1, h2⟩ := h (Str.lit " a") (by decide)
  rw [inputText, logoLines] at h1
  simp only [if_true, Except.ok.injEq] at h1
  subst h1
  exact absurd h2 (by decide)

/-! ### Examples -/

namespace VampireFilesExample

open VampireExample HistoryExample DictExample NotationExample IterExample VampireTextExample
open History (decimal sciOf decimal_reads)

theorem noSlash {w : Str} (h : ∀ a ∈ w, a.isDigit = true ∨ a ∈ ['.', '-', '+', 'e']) : numberOf w = sciOf w := by
  have : w.dropWhile (fun c => decide (c ≠ '/')) = [] := by
    rw [List.dropWhile_eq_nil_iff]
    intro a ha
    rw [decide_eq_true_eq]
    rintro rfl
    rcases h _ ha with h | h <;> exact absurd h (by decide)
  rw [numberOf, this]

theorem readsMat : ReadsMat (decimal (K := ℚ)) fraction numberOf := by
  have hfix : ∀ d (x : ℚ), ∀ a ∈ decimal.fixed d x, a.isDigit = true ∨ a = '.' ∨ a = '-' := fun d x =>
    (History.number_chars _ d _).2
  have hsci : ∀ d (x : ℚ), ∀ a ∈ decimal.sci d x, a.isDigit = true ∨ a ∈ ['.', '-', '+', 'e'] := by
    intro d x a ha
    rcases List.mem_append.1 ha with ha | ha
    · rcases (History.number_chars _ d _).2 a ha with h | rfl | rfl <;> simp_all
    · rcases List.mem_cons.1 ha with rfl | ha
      · simp
      · rw [History.expWord] at ha
        rcases List.mem_cons.1 ha with rfl | ha
        · split <;> simp
        · exact .inl ((Txt.digits_facts 2 _).1 a ha)
  refine ⟨⟨fun d x => ?_, fun d x => ?_⟩, fun x => ⟨⟨by simp [fraction], fun c hc => ?_, fun hc => ?_⟩, fun hc => ?_, ?_⟩,
    fun d x => ⟨fun h => ?_, fun h => ?_⟩⟩
  · rw [noSlash (fun a ha => by rcases hfix d x a ha with h | rfl | rfl <;> simp_all)]
    exact decimal_reads.fixed d x
  · rw [noSlash (hsci d x)]
    exact decimal_reads.sci d x
  · rw [fraction, List.mem_append, List.mem_cons] at hc
    rcases hc with hc | rfl | hc
    · exact (intStr_plain _).space c hc
    · decide
    · exact (natStr_plain _).space c hc
  · rw [fraction, List.mem_append, List.mem_cons] at hc
    rcases hc with hc | hc | hc
    · exact (intStr_plain _).hash hc
    · exact absurd hc (by decide)
    · exact (natStr_plain _).hash hc
  · rw [fraction, List.mem_append, List.mem_cons] at hc
    rcases hc with hc | hc | hc
    · exact intStr_no (by decide) (by decide) _ hc
    · exact absurd hc (by decide)
    · exact absurd (Nat.isDigit_of_mem_toDigits (by norm_num) (by norm_num) hc) (by decide)
  · have hp : ∀ c ∈ intStr x.num, decide (c ≠ '/') = true := fun c hc => by
      rw [decide_eq_true_eq]; rintro rfl; exact intStr_no (by decide) (by decide) _ hc
    rw [numberOf, fraction, List.dropWhile_append_of_pos hp, List.dropWhile_cons_of_neg (by simp)]
    simp only
    rw [List.takeWhile_append_of_pos hp, List.takeWhile_cons_of_neg (by simp), List.append_nil, readInt_intStr, readNat_natStr]
    simp [Rat.num_div_den]
  · rcases hfix d x _ h with h | h | h <;> exact absurd h (by decide)
  · rcases hfix d x _ h with h | h | h <;> exact absurd h (by decide)

/-- The hypotheses of C82 hold for the Hamiltonian of C53; both atoms are of the second material, the spin is 5/2. -/
example (w : Files) : ∃ t w' ucf mat input f keys,
    dumpVampire decimal fraction Logo.env geo ⟨fun _ => Str.lit "Fe", fun _ => none⟩ id 2 full 5 (some [1, 1]) false
      (Str.lit "fe") s1 w = (none, t, w') ∧
    w' (Str.lit "fe.UCF") = some ucf ∧ w' (Str.lit "fe.mat") = some mat ∧ w' (Str.lit "input") = some input ∧
    readUcf numberOf ucf = some f ∧ readSettings mat = some keys ∧
    (f.atoms[1]?).map (fun l => (l.1, l.2.2)) = some (1, 1) ∧
    (valueOf keys (materialKey 2 "atomic-spin-moment")).bind numberOf = some (5 / 2) ∧
    valueOf keys (materialKey 2 "initial-spin-direction") = some (Str.lit "random") := by
  have hlen : (s1.magneticAtoms id).length = 2 := by decide +kernel
  obtain ⟨t, w', ucf, mat, input, f, keys, h1, -, h3, h4, h5, -, h7, h8, -, h9, h10, h11⟩ := C82_vampire_partial readsMat
    two_ne_zero Logo.env (by decide) geo ⟨fun _ => Str.lit "Fe", fun _ => none⟩ id (fun _ => List.Perm.refl _) 2 full 5
    (some [1, 1]) false (Str.lit "fe") w (fun _ => 5 / 2) s1 s1_wf.1.paired s1_wf.2 s1_complete
    (fun m hm => by cases hm; exact ⟨by simp, by rw [hlen]; simp⟩)
    (by
      have : s1.magneticAtoms id = [fe1, fe2] := by decide +kernel
      rw [this]
      intro a ha
      simp only [List.mem_cons, List.not_mem_nil, or_false] at ha
      rcases ha with rfl | rfl <;> exact ⟨by unfold Neat; decide, by unfold Neat; decide⟩)
    (by decide) (by decide) (by decide) (by decide)
  obtain ⟨p, hp⟩ : ∃ p, f.atoms[1]? = some p := by
    have hl : f.atoms.length = 2 := by
      obtain ⟨_, _, f', g1, -, g3, -, -, -, g4, -⟩ := C81_text_partial readsMat.reads two_ne_zero Logo.env (by decide) geo id
        (fun _ => List.Perm.refl _) 2 full 5 (some [1, 1]) false (fun _ => 5 / 2) s1 s1_wf.1.paired s1_wf.2 true true (-1) (-1)
        (by decide +kernel) (by norm_num) (by norm_num) (fun m hm => by cases hm; rw [hlen]; simp)
      rw [h7] at g1
      simp only [Prod.mk.injEq, Except.ok.injEq] at g1
      rw [← g1.1, h9] at g3
      rw [Option.some.inj g3, g4, hlen]
    exact ⟨_, List.getElem?_eq_getElem (by rw [hl]; norm_num)⟩
  obtain ⟨i, q, m⟩ := p
  obtain ⟨rfl, hm, n, a, -, -, -, -, hD⟩ := h11 1 i q m hp
  have hm1 : m = 1 := hm
  subst hm1
  exact ⟨t, w', ucf, mat, input, f, keys, h1, h3, h4, h5, h9, h10, by rw [hp]; rfl, hD.moment, hD.random rfl⟩

end VampireFilesExample

end Magnopy
