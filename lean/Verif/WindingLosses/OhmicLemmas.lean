import Verif.WindingLosses.Lemmas

/-! # Lemmas: ohmic losses of turns and windings -/

set_option linter.unusedSimpArgs false

namespace Verif.WindingLosses

theorem windingIndex_ok {ws : List Winding} {n : String} {w : Nat} (h : windingIndex ws n = .ok w) :
    ∃ x : Winding, ws[w]? = some x ∧ x.name = n := by
  unfold windingIndex at h
  split at h
  · rename_i hl
    simp only [Res.ok.injEq] at h; subst h
    have := List.findIdx_getElem (w := hl)
    exact ⟨_, List.getElem?_eq_getElem hl, by simpa using this⟩
  · simp at h

theorem windingIndex_of {ws : List Winding} {x : Winding} {w : Nat} (hn : (ws.map Winding.name).Nodup)
    (hx : ws[w]? = some x) : windingIndex ws x.name = .ok w := by
  have hw : w < ws.length := (List.getElem?_eq_some_iff.1 hx).1
  have hxe : ws[w] = x := (List.getElem?_eq_some_iff.1 hx).2
  have hl : (ws.findIdx fun y => y.name == x.name) < ws.length :=
    List.findIdx_lt_length_of_exists ⟨x, List.mem_of_getElem? hx, by simp⟩
  have hf := List.findIdx_getElem (w := hl)
  have he : (ws.findIdx fun y => y.name == x.name) = w := by
    have h1 : (ws.map Winding.name)[ws.findIdx fun y => y.name == x.name]'(by simpa using hl) =
        (ws.map Winding.name)[w]'(by simpa using hw) := by
      simp only [List.getElem_map, hxe]; simpa using hf
    exact (List.Nodup.getElem_inj_iff hn).1 h1
  unfold windingIndex
  rw [if_pos hl, he]

theorem branchOf_ok {resistance : Wire → ℚ} {ws : List Winding} {t : Turn} {b : Branch}
    (h : branchOf resistance ws t = .ok b) :
    ∃ (w : Nat) (x : Winding), windingIndex ws t.winding = .ok w ∧ ws[w]? = some x ∧ x.name = t.winding ∧
      0 < resistance x.wire ∧ t.parallel < x.parallels ∧ b = ⟨w, t.parallel, resistance x.wire * t.length⟩ := by
  obtain ⟨w, hw, h⟩ := Res.bind_ok h
  obtain ⟨x, hx, hn⟩ := windingIndex_ok hw
  rw [hx] at h
  obtain ⟨r, hr, h⟩ := Res.bind_ok (r := perMeter resistance x.wire) h
  unfold perMeter at hr
  split at hr
  · simp at hr
  · rename_i hpos
    simp only [Res.ok.injEq] at hr; subst hr
    split at h
    · rename_i hp
      simp only [Res.ok.injEq] at h
      exact ⟨w, x, hw, hx, hn, by linarith, hp, h.symm⟩
    · simp at h

theorem zip_get {α β : Type} {l : List α} {r : List β} {w : Nat} {a : α} {b : β} (h1 : l[w]? = some a)
    (h2 : r[w]? = some b) : (l.zip r)[w]? = some (a, b) :=
  List.getElem?_zip_eq_some.2 ⟨h1, h2⟩

theorem rms_get {exc : List (Option Current)} {n : Nat} {rms : List ℚ}
    (h : Res.mapM (rmsOf exc) (List.range n) = .ok rms) {w : Nat} (hw : w < n) :
    ∃ i : ℚ, rms[w]? = some i ∧ rmsOf exc w = .ok i := by
  have hr : (List.range n)[w]? = some w := by simp [hw]
  obtain ⟨i, h1, h2⟩ := forall₂_get (Res.mapM_ok h) w hr
  exact ⟨i, h1, h2⟩

variable {resistance : Wire → ℚ} {real : Bool} {c : Coil} {exc : List (Option Current)} {o : Output}

/-- What is known of a winding. -/
theorem Parts.winding (P : Parts resistance real c exc o) {w : Nat} {x : Winding} (hx : c.windings[w]? = some x) :
    ∃ (i : ℚ) (l : List ℚ), P.rms[w]? = some i ∧ rmsOf exc w = .ok i ∧ P.ss[w]? = some l ∧
      l = (List.range x.parallels).map (series P.bs P.cs w) ∧ (∀ r ∈ l, 0 < r) ∧
      ((P.rms.zip P.ss).map fun x => parallelCurrents x.1 x.2)[w]? = some (parallelCurrents i l) := by
  have hw : w < c.windings.length := (List.getElem?_eq_some_iff.1 hx).1
  obtain ⟨i, h1, h2⟩ := rms_get P.hrms hw
  obtain ⟨l, h3, h4, h5⟩ := (seriesFrom_ok P.hss).2 w x hx
  refine ⟨i, l, h1, h2, h3, by simpa using h4, h5, ?_⟩
  rw [List.getElem?_map, zip_get h1 h3]; rfl

/-- What is known of a turn. -/
theorem Parts.turn (P : Parts resistance real c exc o) (hn : (c.windings.map Winding.name).Nodup) {k : Nat} {t : Turn}
    (ht : P.turns[k]? = some t) {w : Nat} {x : Winding} (hx : c.windings[w]? = some x) (hname : t.winding = x.name) :
    P.bs[k]? = some ⟨w, t.parallel, resistance x.wire * t.length⟩ ∧ t.parallel < x.parallels ∧ 0 < resistance x.wire := by
  obtain ⟨b, h1, h2⟩ := forall₂_get (Res.mapM_ok P.hbs) k ht
  obtain ⟨w', x', hw', hx', _, hr, hp, hb⟩ := branchOf_ok h2
  rw [hname, windingIndex_of hn hx, Res.ok.injEq] at hw'
  subst hw'
  rw [hx, Option.some.injEq] at hx'; subst hx'
  exact ⟨by rw [h1, hb], hp, hr⟩

theorem currentAt_eq {currents : List (List ℚ)} {w p : Nat} {r : ℚ} {l : List ℚ} (h : currents[w]? = some l) :
    currentAt currents ⟨w, p, r⟩ = (l[p]?).getD 0 := by
  simp [currentAt, h]

theorem sum_range_get (l : List ℚ) : ((List.range l.length).map fun p => (l[p]?).getD 0).sum = l.sum := by
  congr 1
  apply List.ext_getElem
  · simp
  · intro k h1 h2; simp at h1 ⊢; simp [h1]

theorem forall₂_length {α β : Type} {R : α → β → Prop} {l : List α} {r : List β} (h : List.Forall₂ R l r) :
    r.length = l.length := by
  induction h with
  | nil => rfl
  | cons _ _ ih => simp [ih]

theorem turns_sum {ws : List Winding} (hn : (ws.map Winding.name).Nodup) {w : Nat} {x : Winding} (hx : ws[w]? = some x)
    (p : Nat) {turns : List Turn} {bs : List Branch}
    (h : List.Forall₂ (fun t b => branchOf resistance ws t = .ok b) turns bs) :
    ((bs.filter fun b => b.winding == w && b.parallel == p).map fun b => b.resistance).sum =
      resistance x.wire * ((turns.filter fun t => t.winding == x.name && t.parallel == p).map fun t => t.length).sum := by
  induction h with
  | nil => simp
  | @cons t b turns bs hb _ ih =>
    obtain ⟨w', x', hw', hx', hnm, _, _, hbe⟩ := branchOf_ok hb
    subst hbe
    by_cases hname : t.winding = x.name
    · have hww : w' = w := by rw [hname, windingIndex_of hn hx, Res.ok.injEq] at hw'; exact hw'.symm
      subst hww
      rw [hx, Option.some.injEq] at hx'; subst hx'
      by_cases hpp : t.parallel = p
      · simp only [List.filter_cons, hname, hpp, beq_self_eq_true, Bool.and_self, if_true, List.map_cons, List.sum_cons, ih]
        ring
      · have : (t.parallel == p) = false := by simpa using hpp
        simp only [List.filter_cons, this, Bool.and_false, Bool.false_eq_true, if_false, ih]
    · have hww : (w' == w) = false := by
        simp only [beq_eq_false_iff_ne, ne_eq]
        intro hww; subst hww
        rw [hx, Option.some.injEq] at hx'; subst hx'; exact hname hnm.symm
      have hnf : (t.winding == x.name) = false := by simpa using hname
      simp only [List.filter_cons, hww, hnf, Bool.false_and, Bool.false_eq_true, if_false, ih]

theorem connections_get {ws : List Winding} {lengths cs : List (List ℚ)}
    (h : connectionResistances resistance ws lengths = .ok cs) {w p : Nat} {x : Winding} {ls : List ℚ} {l : ℚ}
    (hx : ws[w]? = some x) (hls : lengths[w]? = some ls) (hl : ls[p]? = some l) (hnn : ∀ y ∈ ls, 0 ≤ y) :
    ((cs[w]?.getD [])[p]?).getD 0 = resistance x.wire * l := by
  obtain ⟨b, h1, h2⟩ := forall₂_get (Res.mapM_ok h) w (zip_get hx hls)
  simp only at h2
  by_cases ha : (ls.any fun l => decide (l > 0)) = true
  · rw [if_pos ha] at h2
    obtain ⟨r, hr, h2⟩ := Res.bind_ok h2
    unfold perMeter at hr
    split at hr
    · simp at hr
    · simp only [Res.ok.injEq] at hr h2
      subst hr h2
      simp [h1, hl]
  · rw [if_neg ha] at h2
    simp only [Res.ok.injEq] at h2
    subst h2
    have hl0 : l = 0 := by
      have hm := List.mem_of_getElem? hl
      have h1 := hnn l hm
      simp only [List.any_eq_true, decide_eq_true_eq, not_exists, not_and, not_lt] at ha
      exact le_antisymm (ha l hm) h1
    rw [h1, hl0, mul_zero, Option.getD_some, List.getElem?_map, hl]; rfl

end Verif.WindingLosses
