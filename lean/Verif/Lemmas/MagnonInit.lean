import Verif.Model.Magnon
import Verif.Lemmas.EnergyInit
import Verif.Lemmas.Off
import Verif.Lemmas.HamCopy
import Verif.Props.HamNotation

/-!
# Helper lemmas: the constructor of `MagnonDispersion`
-/

set_option autoImplicit false
set_option linter.unusedSectionVars false

namespace Magnopy

open PyDict

namespace St

variable {K : Type*} [Field K]

theorem copy_exch (s : St K) : s.copy.exch = List.map (fun p => (p.1, p.2 + s.next)) s.exch := rfl

theorem copy_onSite (s : St K) : s.copy.onSite = List.map (fun p => (p.1, p.2 + s.next)) s.onSite := rfl

theorem copy_inv {s : St K} (h : s.Inv) : s.copy.Inv := by
  have e1 : s.copy.exch.keys = s.exch.keys := keys_mapVal s.exch (fun r => r + s.next)
  have e2 : s.copy.onSite.keys = s.onSite.keys := keys_mapVal s.onSite (fun r => r + s.next)
  refine ⟨copy_keysNodup h.nodup, ⟨?_, ?_⟩, fun hd => ?_⟩
  · rw [e1]; exact h.refer.exch
  · rw [e2]; exact h.refer.site
  · rw [e1]; exact h.closed hd

/-- The old objects are not part of the copy. -/
theorem copy_off {s : St K} (hk : s.KeysNodup) (ha : s.Alloc) : s.copy.Off True (fun r => r < s.next) s.cell := by
  refine ⟨fun x hx => ?_, fun p hp => ?_, fun p hp => ?_, fun x hx => copy_cell_old s hx⟩
  · show x < s.next + s.next
    omega
  · rw [copy_exch] at hp
    obtain ⟨q, hq, rfl⟩ := List.mem_map.1 hp
    have := ha.exch q.1 q.2 (get?_of_mem hk.exch hq)
    exact ⟨by simp only; omega, fun _ => by show q.2 + s.next < s.next + s.next; omega⟩
  · rw [copy_onSite] at hp
    obtain ⟨q, hq, rfl⟩ := List.mem_map.1 hp
    have := ha.site q.1 q.2 (get?_of_mem hk.site hq)
    exact ⟨by simp only; omega, fun _ => by show q.2 + s.next < s.next + s.next; omega⟩

end St

namespace MagnonObj

/-- The bonds that `exchange_like` visits: on-site terms as bonds of an atom with itself, then the bonds. -/
def likeItems (t : St ℝ) : List (Bond × M3 ℝ) :=
  t.onSiteItems.map (fun p => ((p.1, p.1, (0, 0, 0)), p.2)) ++ t.exchangeItems

/-- What is known about a new object; `t` is its private Hamiltonian. -/
structure ObjSpec (order : List Atom → List Atom) (lat : M3 ℝ) (pos : Atom → V3 ℝ) (spinVec : Atom → Option (V3 ℝ))
    (s : St ℝ) (o : MagnonObj) (t : St ℝ) (items : List (Bond × ℕ)) : Prop where
  N : o.N = (t.magneticAtoms order).length
  S : ∃ sv : Atom → V3 ℝ, (∀ a ∈ t.magneticAtoms order, spinVec a = some (sv a)) ∧ o.S = (t.magneticAtoms order).map sv
  u : o.u = o.S.map uOf
  v : o.v = o.S.map vOf
  C : o.C = none
  bonds : o.bonds = items.map fun p =>
    ((t.magneticAtoms order).idxOf p.1.1, (t.magneticAtoms order).idxOf p.1.2.1, vector lat pos p.1, p.2)
  atoms : ∀ p ∈ items, p.1.1 ∈ t.magneticAtoms order ∧ p.1.2.1 ∈ t.magneticAtoms order
  values : items.map (fun p => (p.1, t.cell p.2)) = likeItems t
  inv : t.Inv
  alloc : t.Alloc
  flags : t.getNotation = .ok (true, false, 1, 1)
  old : ∀ r < s.next, t.cell r = s.cell r
  fresh : ∀ p ∈ items, s.next ≤ p.2 ∧ p.2 < t.next
  next : s.next ≤ t.next
  ham : ∃ t0, s.copy.setNotation (.str "SpinW") = .ok t0 ∧ t.toHam = t0.toHam ∧ (∀ b, t.valE b = t0.valE b) ∧
    ∀ a, t.valO a = t0.valO a

theorem bondsOf_ok {atoms : List Atom} (vec : Bond → V3 ℝ) (l : List (Bond × ℕ))
    (h : ∀ p ∈ l, p.1.1 ∈ atoms ∧ p.1.2.1 ∈ atoms) :
    bondsOf (EnergyObj.indices atoms) vec l =
      .ok (l.map fun p => (atoms.idxOf p.1.1, atoms.idxOf p.1.2.1, vec p.1, p.2)) := by
  induction l with
  | nil => rfl
  | cons p l ih =>
    obtain ⟨b, r⟩ := p
    have hb := h _ List.mem_cons_self
    have h1 : PyDict.get? (EnergyObj.indices atoms) b.1 = some (atoms.idxOf b.1) := PyDict.get?_zipIdx atoms b.1 hb.1 0
    have h2 : PyDict.get? (EnergyObj.indices atoms) b.2.1 = some (atoms.idxOf b.2.1) :=
      PyDict.get?_zipIdx atoms b.2.1 hb.2 0
    simp [bondsOf, h1, h2, ih (fun q hq => h q (List.mem_cons_of_mem _ hq))]

theorem spinVectors_ok (spinVec : Atom → Option (V3 ℝ)) (l : List Atom) :
    (∀ S, spinVectors spinVec l = .ok S →
      S = l.map (fun a => (spinVec a).getD 0) ∧ ∀ a ∈ l, spinVec a = some ((spinVec a).getD 0)) ∧
      ((∀ a ∈ l, (spinVec a).isSome) → spinVectors spinVec l = .ok (l.map fun a => (spinVec a).getD 0)) := by
  induction l with
  | nil => exact ⟨fun S h => by cases h; simp, fun _ => rfl⟩
  | cons a l ih =>
    constructor
    · intro S h
      unfold spinVectors at h
      cases ha : spinVec a with
      | none => rw [ha] at h; cases h
      | some x =>
        rw [ha] at h
        cases hl : spinVectors spinVec l with
        | error e => rw [hl] at h; cases h
        | ok xs =>
          rw [hl] at h
          cases h
          obtain ⟨h1, h2⟩ := ih.1 xs hl
          refine ⟨by simp [ha, h1], fun b hb => ?_⟩
          rcases List.mem_cons.1 hb with rfl | hb
          · simp [ha]
          · exact h2 b hb
    · intro h
      obtain ⟨x, hx⟩ := Option.isSome_iff_exists.1 (h a List.mem_cons_self)
      simp [spinVectors, hx, ih.2 fun b hb => h b (List.mem_cons_of_mem _ hb)]

theorem init_spec {order : List Atom → List Atom} (hord : ∀ l, (order l).Perm l) (lat : M3 ℝ) (pos : Atom → V3 ℝ)
    (spinVec : Atom → Option (V3 ℝ)) {s : St ℝ} (hi : s.Inv) (ha : s.Alloc) {t0 : St ℝ}
    (h0 : s.copy.setNotation (.str "SpinW") = .ok t0) :
    (∀ o t, init order lat pos spinVec s = (.ok o, t) → ∃ items, ObjSpec order lat pos spinVec s o t items) ∧
      ((∀ a ∈ t0.magneticAtoms order, (spinVec a).isSome) → ∃ o t, init order lat pos spinVec s = (.ok o, t)) ∧
      ∀ r < s.next, (init order lat pos spinVec s).2.cell r = s.cell r := by
  have hinv : t0.Inv := by
    have := St.setNotation_inv (St.copy_inv hi) (.str "SpinW")
    rw [h0] at this; exact this
  have hoff : t0.Off True (fun r => r < s.next) s.cell := by
    have := (St.copy_off hi.nodup ha).step (.setNotation (.str "SpinW")) (by simp [Op.refs])
    simp only [Op.step] at this
    have e : ∀ inst : DecidableEq ℝ, @St.setNotation ℝ _ inst (.str "SpinW") s.copy = .ok t0 := by
      intro inst; rw [← h0]; congr 1; exact Subsingleton.elim _ _
    rw [e] at this
    exact this
  have hal : t0.Alloc :=
    ⟨fun b r hb => (hoff.exch (b, r) (mem_of_get? hb)).2 trivial, fun b r hb => (hoff.site (b, r) (mem_of_get? hb)).2 trivial⟩
  have hfl : t0.getNotation = .ok (true, false, 1, 1) := by
    rcases C08_assign s.copy (.str "SpinW") with ⟨q, hq, _, h⟩ | ⟨h, _⟩
    · rw [h0] at h
      have := h rfl
      rcases hq with hq | hq | hq | hq
      · exact absurd hq.1 (by decide +kernel)
      · exact absurd hq.1 (by decide +kernel)
      · rw [← hq.2]; exact this
      · exact absurd hq.1 (by decide +kernel)
    · exact absurd (Or.inr (Or.inr (Or.inl ⟨by decide +kernel, rfl⟩))) (h (true, false, 1, 1))
  obtain ⟨f1, f2, f3, f4⟩ := St.getNotation_ok_iff.1 hfl
  have hinit : LikeIter.init t0 = .ok ⟨t0.onSite.length, t0.onSite, t0.onSite.keys, 0, t0.exch.length, t0.exch,
      t0.exch.keys, 0, (1 : ℝ)⟩ := by
    simp [LikeIter.init, f3, f4, St.ratio]
  obtain ⟨it', hv⟩ := LikeIter.visits_aux1 t0 (1 : ℝ) t0.onSite.length t0.onSite t0.exch t0.exch.length t0.onSite
    (fun p hp => get?_of_mem hinv.nodup.site (k := p.1) (v := p.2) hp) t0.exch
    (fun p hp => get?_of_mem hinv.nodup.exch (k := p.1) (v := p.2) hp) (fun h => List.length_pos_of_ne_nil h) 0 (by simp)
  set t := LikeIter.heap (1 : ℝ) t0.onSite t0 with ht
  have hf := LikeIter.heap_frame (1 : ℝ) t0.onSite t0
  rw [← ht] at hf
  obtain ⟨hf1, hf2, hf3⟩ := hf
  have hcol : collectIter LikeIter.next (EnergyObj.likeFuel t0) ((⟨t0.onSite.length, t0.onSite, t0.onSite.keys, 0,
      t0.exch.length, t0.exch, t0.exch.keys, 0, (1 : ℝ)⟩ : LikeIter ℝ), t0) =
        .ok (LikeIter.siteItems t0.onSite t0.next ++ t0.exch, (it', t)) :=
    collectIter_of_visits hv (n := EnergyObj.likeFuel t0) (by
      rw [List.length_append, LikeIter.siteItems_length]; simp [EnergyObj.likeFuel])
  have hmag : t.magneticAtoms order = t0.magneticAtoms order := by
    unfold St.magneticAtoms
    rw [(congrArg Ham.exch hf1 :), (congrArg Ham.onSite hf1 :)]
  have hat : ∀ p ∈ LikeIter.siteItems t0.onSite t0.next ++ t0.exch,
      p.1.1 ∈ t0.magneticAtoms order ∧ p.1.2.1 ∈ t0.magneticAtoms order := by
    intro p hp
    rw [EnergyObj.mem_magneticAtoms hord, EnergyObj.mem_magneticAtoms hord]
    rcases List.mem_append.1 hp with hp | hp
    · obtain ⟨h1, q, h3, h4⟩ := EnergyObj.siteItems_fst _ _ p hp
      have : p.1.1 ∈ t0.onSite.keys := by rw [h4]; exact List.mem_map.2 ⟨q, h3, rfl⟩
      exact ⟨Or.inr this, Or.inr (h1 ▸ this)⟩
    · have hb : p.1 ∈ t0.exch.keys := List.mem_map.2 ⟨p, hp, rfl⟩
      exact ⟨Or.inl ⟨_, hb, Or.inl rfl⟩, Or.inl ⟨_, hb, Or.inr rfl⟩⟩
  have hbo := bondsOf_ok (vector lat pos) _ hat
  have hsv := spinVectors_ok spinVec (t0.magneticAtoms order)
  have hrun : ∀ r, spinVectors spinVec (t0.magneticAtoms order) = r → init order lat pos spinVec s =
      match r with
      | .error e => (.error e, t)
      | .ok S => (.ok ⟨(t0.magneticAtoms order).length,
          (LikeIter.siteItems t0.onSite t0.next ++ t0.exch).map fun p =>
            ((t0.magneticAtoms order).idxOf p.1.1, (t0.magneticAtoms order).idxOf p.1.2.1, vector lat pos p.1, p.2),
          S, S.map uOf, S.map vOf, none⟩, t) := by
    intro r hr
    unfold init
    simp only [h0, Res.st_ok, Res.err_ok, hinit, hcol, hbo, hr]
    cases r <;> rfl
  refine ⟨fun o t' h => ?_, fun h => ?_, fun r hr => ?_⟩
  · rw [hrun _ rfl] at h
    cases hS : spinVectors spinVec (t0.magneticAtoms order) with
    | error e => rw [hS] at h; simp at h
    | ok S =>
      rw [hS] at h
      simp only [Prod.mk.injEq, Except.ok.injEq] at h
      obtain ⟨rfl, rfl⟩ := h
      refine ⟨LikeIter.siteItems t0.onSite t0.next ++ t0.exch,
        { N := by rw [hmag], S := ⟨fun a => (spinVec a).getD 0, ?_, ?_⟩, u := rfl, v := rfl, C := rfl,
          bonds := by rw [hmag], atoms := by rw [hmag]; exact hat, values := ?_, inv := ?_, alloc := ?_, flags := ?_,
          old := ?_, fresh := ?_, next := ?_, ham := ⟨t0, h0, hf1, ?_, ?_⟩ }⟩
      · rw [hmag]; exact (hsv.1 S hS).2
      · rw [hmag]; exact (hsv.1 S hS).1
      · rw [List.map_append, likeItems]
        congr 1
        · rw [LikeIter.siteItems_cells (1 : ℝ) t0.onSite t0
            (fun p hp => hal.site p.1 p.2 (get?_of_mem hinv.nodup.site hp))]
          unfold St.onSiteItems
          rw [List.map_map, (congrArg Ham.onSite hf1 :)]
          apply List.map_congr_left
          intro p hp
          simp only [Function.comp, Prod.mk.injEq, true_and]
          rw [hf3 _ (hal.site p.1 p.2 (get?_of_mem hinv.nodup.site hp))]
          ext i j
          simp [Param.mulNum]
        · unfold St.exchangeItems
          rw [(congrArg Ham.exch hf1 :)]
      · refine ⟨hinv.nodup.congr hf1, hinv.refer.congr hf1, ?_⟩
        rw [(congrArg Ham.exch hf1 :), (congrArg Ham.dc hf1 :)]
        exact hinv.closed
      · refine ⟨?_, ?_⟩
        · rw [(congrArg Ham.exch hf1 :)]
          intro b r hb; have := hal.exch b r hb; omega
        · rw [(congrArg Ham.onSite hf1 :)]
          intro b r hb; have := hal.site b r hb; omega
      · rw [St.getNotation_ok_iff, (congrArg Ham.dc hf1 :), (congrArg Ham.sn hf1 :), (congrArg Ham.ef hf1 :),
          (congrArg Ham.osf hf1 :)]
        exact ⟨f1, f2, f3, f4⟩
      · intro r hr
        rw [hf3 r (hoff.lt r hr)]
        exact hoff.cell r hr
      · have hle : s.next ≤ t0.next := by
          by_contra hc
          exact absurd (hoff.lt t0.next (not_le.1 hc)) (lt_irrefl _)
        intro p hp
        rcases List.mem_append.1 hp with hp | hp
        · have := EnergyObj.siteItems_refs _ _ p hp
          omega
        · have := hoff.exch p hp
          have h3 := this.2 trivial
          exact ⟨not_lt.1 this.1, by omega⟩
      · have hle : s.next ≤ t0.next := by
          by_contra hc
          exact absurd (hoff.lt t0.next (not_le.1 hc)) (lt_irrefl _)
        omega
      · exact St.valE_congr hf1 hal hf3
      · exact St.valO_congr hf1 hal hf3
  · rw [hrun _ (hsv.2 h)]
    exact ⟨_, _, rfl⟩
  · have : (init order lat pos spinVec s).2 = t := by
      rw [hrun _ rfl]
      cases spinVectors spinVec (t0.magneticAtoms order) <;> rfl
    rw [this, hf3 r (hoff.lt r hr)]
    exact hoff.cell r hr

/-- A successful constructor has assigned the notation. -/
theorem init_ok {order : List Atom → List Atom} {lat : M3 ℝ} {pos : Atom → V3 ℝ} {spinVec : Atom → Option (V3 ℝ)}
    {s : St ℝ} {o : MagnonObj} {t : St ℝ} (h : init order lat pos spinVec s = (.ok o, t)) :
    ∃ t0, s.copy.setNotation (.str "SpinW") = .ok t0 := by
  unfold init at h
  cases hr : (s.copy.setNotation (.str "SpinW")).err with
  | none =>
    refine ⟨(s.copy.setNotation (.str "SpinW")).st, ?_⟩
    generalize s.copy.setNotation (.str "SpinW") = r at hr
    cases r
    simp only at hr
    subst hr
    rfl
  | some e => simp [hr] at h

theorem objSpec {order : List Atom → List Atom} (hord : ∀ l, (order l).Perm l) {lat : M3 ℝ} {pos : Atom → V3 ℝ}
    {spinVec : Atom → Option (V3 ℝ)} {s : St ℝ} (hi : s.Inv) (ha : s.Alloc) {o : MagnonObj} {t : St ℝ}
    (h : init order lat pos spinVec s = (.ok o, t)) : ∃ items, ObjSpec order lat pos spinVec s o t items := by
  obtain ⟨t0, h0⟩ := init_ok h
  exact (init_spec hord lat pos spinVec hi ha h0).1 o t h

/-- Whatever the outcome, objects that existed before keep their matrices. -/
theorem init_old {order : List Atom → List Atom} (hord : ∀ l, (order l).Perm l) (lat : M3 ℝ) (pos : Atom → V3 ℝ)
    (spinVec : Atom → Option (V3 ℝ)) {s : St ℝ} (hi : s.Inv) (ha : s.Alloc) {r : ℕ} (hr : r < s.next) :
    (init order lat pos spinVec s).2.cell r = s.cell r := by
  cases h : (s.copy.setNotation (.str "SpinW")).err with
  | none =>
    have h0 : s.copy.setNotation (.str "SpinW") = .ok (s.copy.setNotation (.str "SpinW")).st := by
      generalize s.copy.setNotation (.str "SpinW") = r at h
      cases r
      simp only at h
      subst h
      rfl
    exact (init_spec hord lat pos spinVec hi ha h0).2.2 r hr
  | some e =>
    have e1 : (init order lat pos spinVec s).2 = (s.copy.setNotation (.str "SpinW")).st := by
      simp [init, h]
    have hoff := (St.copy_off hi.nodup ha).step (.setNotation (.str "SpinW")) (by simp [Op.refs])
    simp only [Op.step] at hoff
    rw [e1]
    have e2 : ∀ inst : DecidableEq ℝ, (@St.setNotation ℝ _ inst (.str "SpinW") s.copy).st = (s.copy.setNotation (.str "SpinW")).st := by
      intro inst; congr 2
    rw [e2] at hoff
    exact hoff.cell r hr

end MagnonObj
end Magnopy
