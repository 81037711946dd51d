import Verif.SectionInterface.Lemmas

/-! # C26: the insulation between sections -/

set_option linter.unusedSectionVars false
set_option linter.unusedSimpArgs false

namespace Verif.SectionInterface

open Verif.Round

variable {K : Type} [Field K] [LinearOrder K] [IsStrictOrderedRing K] [FloorRing K]

/-! ## Specification -/

/-- The coating that insulates a wire: its own, or that of its strand for a litz wire whose own coating states no
breakdown voltage. -/
def Insulates (w : Wire K) (c : Coating K) : Prop :=
  (w.coating = some c ∧ c.breakdown ≠ none) ∨
    (w.litz = true ∧ w.strandCoating = some c ∧ ∃ o, w.coating = some o ∧ o.breakdown = none)

/-- The coating withstands the voltage. -/
def Withstands (c : Coating K) (v : K) : Prop := ∃ b, c.breakdown = some b ∧ v < b

/-- The voltages that the tape between two sections must withstand: for double insulation either the whole
voltage, or the larger of the voltages of basic and supplementary insulation. -/
def TapeVoltage (cls : Cls) (co : Coordination K) (wv : Cls → Option K) (v : K) : Prop :=
  v = co.withstand ∨ (cls = .double ∧ ∃ vb vs, wv .basic = some vb ∧ wv .supplementary = some vs ∧
    v = max vb vs)

/-- The wires provide at least `n` layers good for one of these voltages. -/
def WiresProvide (cls : Cls) (co : Coordination K) (wv : Cls → Option K) (l r : Wire K) (fiw : Bool)
    (n : Nat) : Prop :=
  ∃ v k, TapeVoltage cls co wv v ∧ times l r v fiw = some k ∧ n ≤ k

/-! ## Wires -/

theorem wireShare_pos {w : Wire K} {v : K} {fiw : Bool} {n : Nat} (h : wireShare w v fiw = .count n)
    (hn : 0 < n) : ∃ c, Insulates w c ∧ Withstands c v := by
  have pos : ∀ (c : Coating K) (b : K), c.breakdown = some b → coatingShare c b v fiw = n → Withstands c v := by
    intro c b hb hs
    refine ⟨b, hb, ?_⟩
    by_contra hc
    unfold coatingShare at hs
    rw [if_neg (by exact fun hh => hc hh)] at hs
    omega
  unfold wireShare at h
  cases hc : w.coating with
  | none => rw [hc] at h; simp only [Share.count.injEq] at h; omega
  | some c =>
    rw [hc] at h
    simp only at h
    cases hb : c.breakdown with
    | some b =>
      rw [hb] at h
      simp only [Share.count.injEq] at h
      exact ⟨c, Or.inl ⟨hc, by simp [hb]⟩, pos c b hb h⟩
    | none =>
      rw [hb] at h
      simp only at h
      split at h
      · rename_i hl
        cases hs : w.strandCoating with
        | none => rw [hs] at h; cases h
        | some s =>
          rw [hs] at h
          simp only at h
          cases hsb : s.breakdown with
          | none => rw [hsb] at h; cases h
          | some b =>
            rw [hsb] at h
            simp only [Share.count.injEq] at h
            exact ⟨s, Or.inr ⟨hl, hs, c, hc, hb⟩, pos s b hsb h⟩
      · cases h

/-- The wires are never credited with a layer unless one of them has a coating whose breakdown voltage exceeds
the withstand voltage. -/
theorem times_pos {l r : Wire K} {v : K} {fiw : Bool} {n : Nat} (h : times l r v fiw = some n) (hn : 0 < n) :
    (∃ c, Insulates l c ∧ Withstands c v) ∨ (∃ c, Insulates r c ∧ Withstands c v) := by
  unfold times at h
  cases hl : wireShare l v fiw with
  | throw => rw [hl] at h; cases h
  | unknown => rw [hl] at h; simp only [Option.some.injEq] at h; omega
  | count a =>
    rw [hl] at h
    simp only at h
    cases hr : wireShare r v fiw with
    | throw => rw [hr] at h; cases h
    | unknown => rw [hr] at h; simp only [Option.some.injEq] at h; omega
    | count b =>
      rw [hr] at h
      simp only [Option.some.injEq] at h
      rcases Nat.eq_zero_or_pos a with rfl | ha
      · exact Or.inr (wireShare_pos hr (by omega))
      · exact Or.inl (wireShare_pos hl ha)

/-- A higher voltage never credits the wires with more layers. -/
theorem times_antitone {l r : Wire K} {v w : K} {fiw : Bool} {n m : Nat} (hvw : v ≤ w)
    (h : times l r v fiw = some n) (h' : times l r w fiw = some m) : m ≤ n := by
  have cs : ∀ (c : Coating K) (b : K), coatingShare c b w fiw ≤ coatingShare c b v fiw := by
    intro c b
    unfold coatingShare
    by_cases h2 : b > w
    · rw [if_pos h2, if_pos (lt_of_le_of_lt hvw h2)]
    · rw [if_neg h2]; exact Nat.zero_le _
  have ws : ∀ x : Wire K, (wireShare x v fiw = .throw ∧ wireShare x w fiw = .throw) ∨
      (wireShare x v fiw = .unknown ∧ wireShare x w fiw = .unknown) ∨
      ∃ a b, wireShare x v fiw = .count a ∧ wireShare x w fiw = .count b ∧ b ≤ a := by
    intro x
    unfold wireShare
    cases x.coating with
    | none => exact Or.inr (Or.inr ⟨0, 0, rfl, rfl, le_refl _⟩)
    | some c =>
      simp only
      cases c.breakdown with
      | some b => exact Or.inr (Or.inr ⟨_, _, rfl, rfl, cs c b⟩)
      | none =>
        simp only
        split
        · cases x.strandCoating with
          | none => exact Or.inl ⟨rfl, rfl⟩
          | some s =>
            simp only
            cases s.breakdown with
            | some b => exact Or.inr (Or.inr ⟨_, _, rfl, rfl, cs s b⟩)
            | none => exact Or.inr (Or.inl ⟨rfl, rfl⟩)
        · exact Or.inr (Or.inl ⟨rfl, rfl⟩)
  unfold times at h h'
  rcases ws l with ⟨e1, e2⟩ | ⟨e1, e2⟩ | ⟨a, b, e1, e2, hab⟩ <;> rw [e1] at h <;> rw [e2] at h'
  · cases h
  · simp only [Option.some.injEq] at h h'; omega
  · rcases ws r with ⟨f1, f2⟩ | ⟨f1, f2⟩ | ⟨a', b', f1, f2, hab'⟩ <;> simp only [f1] at h <;>
      simp only [f2] at h'
    · cases h
    · simp only [Option.some.injEq] at h h'; omega
    · simp only [Option.some.injEq] at h h'; omega

/-! ## Tape -/

/-- The tape is the thickest one of the material: its thickness is not negative, no element is thicker, and it
is one of the elements unless there is none with a positive thickness. -/
theorem tape_is_thickest (tapes : List (Option K × K)) :
    0 ≤ (thickerTape tapes (0, 0)).1 ∧
      (∀ th v, (some th, v) ∈ tapes → th ≤ (thickerTape tapes (0, 0)).1) ∧
      ((thickerTape tapes (0, 0)).1 = 0 ∨
        (some (thickerTape tapes (0, 0)).1, (thickerTape tapes (0, 0)).2) ∈ tapes) := by
  obtain ⟨h1, h2, h3⟩ := thickerTape_ge tapes (0, 0)
  refine ⟨h1, h2, ?_⟩
  rcases h3 with h | h
  · left; rw [h]
  · exact Or.inr h

/-! ## C26 -/

/-- C26: no tape too many. When more than one tape is used, one tape fewer would (up to a twentieth of a tape) miss the
required distance through insulation, or fail to withstand any of the admissible voltages: for double insulation the
cheaper of the two alternatives is taken. -/
theorem no_superfluous_tape {cls cls' : Cls} {tapes : List (Option K × K)} {l r : Wire K} {fiw am aw : Bool}
    {coord : Option (Coordination K)} {wv : Cls → Option K} {i : Interface K}
    (h : calculate cls tapes l r fiw am aw coord wv = (.ok (some i), cls')) :
    ∃ t ds co, (some t, ds) ∈ tapes ∧ 0 < t ∧ coord = some co ∧ i.thickness = t * i.layers ∧
      (0 < ds → i.layers ≤ 1 ∨ t * ((i.layers : K) - 1) < co.dti + t / 20 ∨
        ∀ v, TapeVoltage cls co wv v → ds * (t * ((i.layers : K) - 1)) < v + ds * (t / 20)) := by
  unfold calculate at h
  obtain ⟨ht0, _, ht2⟩ := tape_is_thickest tapes
  revert h ht0 ht2
  generalize thickerTape tapes (0, 0) = tape
  obtain ⟨t, ds⟩ := tape
  intro h ht0 ht2
  simp only at h ht0 ht2
  by_cases htz : t = 0
  · rw [if_pos htz] at h; simp at h
  rw [if_neg htz] at h
  have htp : 0 < t := lt_of_le_of_ne ht0 (Ne.symm htz)
  have htm : (some t, ds) ∈ tapes := by
    rcases ht2 with e | e
    · exact absurd e htz
    · exact e
  cases coord with
  | none => simp at h
  | some co =>
    simp only at h
    by_cases hb : am = false ∧ aw = false
    · rw [if_pos hb] at h; simp at h
    rw [if_neg hb] at h
    refine ⟨t, ds, co, htm, htp, rfl, ?_⟩
    have volt : ∀ (v : K) (n : Nat), 0 < ds → (n : K) - 1 < v / ds / t + 1 / 20 →
        ds * (t * ((n : K) - 1)) < v + ds * (t / 20) := by
      intro v n hds hn
      have h1 := mul_lt_mul_of_pos_left hn (mul_pos hds htp)
      have h2 : ds * t * (v / ds / t + 1 / 20) = v + ds * (t / 20) := by
        have := hds.ne'; field_simp
      rw [h2] at h1
      linarith
    have fin : ∀ c : Choice K, finish am t co.dti c = some i →
        (0 < ds → c.layers ≤ 1 ∨
          ∀ v, TapeVoltage cls co wv v → ds * (t * ((c.layers : K) - 1)) < v + ds * (t / 20)) →
        i.thickness = t * i.layers ∧ (0 < ds → i.layers ≤ 1 ∨ t * ((i.layers : K) - 1) < co.dti + t / 20 ∨
          ∀ v, TapeVoltage cls co wv v → ds * (t * ((i.layers : K) - 1)) < v + ds * (t / 20)) := by
      intro c hf hc
      unfold finish at hf
      split at hf
      · cases hf
      · simp only [Option.some.injEq] at hf
        subst hf
        refine ⟨rfl, fun hds => ?_⟩
        simp only
        rcases raise_economy (t := t) (dti := co.dti) c.layers with e | e | e
        · rw [e]
          rcases hc hds with g | g
          · exact Or.inl g
          · exact Or.inr (Or.inr g)
        · left; omega
        · right; left
          have h1 := mul_lt_mul_of_pos_left e htp
          have h2 : t * (co.dti / t + 1 / 20) = co.dti + t / 20 := by field_simp
          rw [h2] at h1
          exact h1
    have one : ∀ c : Choice K, cls ≠ .double → (c.layers = 1 ∨ (c.layers : K) - 1 < co.withstand / ds / t + 1 / 20) →
        (0 < ds → c.layers ≤ 1 ∨
          ∀ v, TapeVoltage cls co wv v → ds * (t * ((c.layers : K) - 1)) < v + ds * (t / 20)) := by
      intro c hne hc hds
      rcases hc with e | e
      · left; omega
      · right
        rintro v (rfl | ⟨hd, _⟩)
        · exact volt _ _ hds e
        · exact absurd hd hne
    cases cls with
    | functional =>
      simp only at h
      cases hc : chooseSimple true l r fiw aw co.withstand co.creepage ds t with
      | throw => rw [hc] at h; simp at h
      | ub => rw [hc] at h; simp at h
      | ok c =>
        rw [hc] at h
        simp only [Prod.mk.injEq, Res.ok.injEq] at h
        exact fin c h.1 (one c (by simp) (chooseSimple_economy hc))
    | basic =>
      simp only at h
      cases hc : chooseSimple false l r fiw aw co.withstand co.creepage ds t with
      | throw => rw [hc] at h; simp at h
      | ub => rw [hc] at h; simp at h
      | ok c =>
        rw [hc] at h
        simp only [Prod.mk.injEq, Res.ok.injEq] at h
        exact fin c h.1 (one c (by simp) (chooseSimple_economy hc))
    | supplementary =>
      simp only at h
      cases hc : chooseSimple false l r fiw aw co.withstand co.creepage ds t with
      | throw => rw [hc] at h; simp at h
      | ub => rw [hc] at h; simp at h
      | ok c =>
        rw [hc] at h
        simp only [Prod.mk.injEq, Res.ok.injEq] at h
        exact fin c h.1 (one c (by simp) (chooseSimple_economy hc))
    | reinforced =>
      simp only at h
      cases hc : chooseReinforced l r fiw aw co.withstand co.creepage ds t with
      | throw => rw [hc] at h; simp at h
      | ub => rw [hc] at h; simp at h
      | ok c =>
        rw [hc] at h
        simp only [Prod.mk.injEq, Res.ok.injEq] at h
        exact fin c h.1 (one c (by simp) (chooseReinforced_economy hc))
    | double =>
      simp only at h
      cases hc : chooseDouble l r fiw aw wv co.withstand co.creepage ds t with
      | mk res st =>
        rw [hc] at h
        cases res with
        | throw => simp at h
        | ub => simp at h
        | ok c =>
          simp only [Prod.mk.injEq, Res.ok.injEq] at h
          obtain ⟨vb, vs, e1, e2, e3⟩ := chooseDouble_economy hc
          refine fin c h.1 (fun hds => ?_)
          rcases e3 with e3 | ⟨e3, e4⟩
          · left; omega
          · right
            rintro v (rfl | ⟨_, vb', vs', f1, f2, rfl⟩)
            · exact volt _ _ hds e3
            · rw [e1, Option.some.injEq] at f1
              rw [e2, Option.some.injEq] at f2
              subst f1; subst f2
              exact volt _ _ hds e4

/-- C26 (partial: see `too_thin`). Whenever an interface is returned:
* it consists of at least one whole tape and its thickness is that of the tapes;
* its thickness reaches the required distance through insulation up to a twentieth of a tape;
* it keeps the full creepage margin, or the margin is dropped and then insulated wire is allowed and the wires
  provide at least two layers (three for reinforced insulation);
* without margin tape no margin is left open;
* either insulated wire is allowed and the wires provide a layer (three for double and reinforced), or the
  tapes withstand one of the admissible voltages up to a twentieth of a tape;
* the insulation type of the inputs is what it was. -/
theorem interface_partial {cls cls' : Cls} {tapes : List (Option K × K)} {l r : Wire K} {fiw am aw : Bool}
    {coord : Option (Coordination K)} {wv : Cls → Option K} {i : Interface K}
    (h : calculate cls tapes l r fiw am aw coord wv = (.ok (some i), cls')) :
    ∃ t ds co, (some t, ds) ∈ tapes ∧ 0 < t ∧ coord = some co ∧
      1 ≤ i.layers ∧ i.thickness = t * i.layers ∧
      co.dti ≤ i.thickness + t / 20 ∧
      (i.margin = co.creepage ∨ (i.margin = 0 ∧ aw = true ∧
        WiresProvide cls co wv l r fiw (if cls = .reinforced then 3 else 2))) ∧
      (am = false → i.margin ≤ 0) ∧
      ((aw = true ∧ WiresProvide cls co wv l r fiw (if cls = .double ∨ cls = .reinforced then 3 else 1)) ∨
        ∃ v, TapeVoltage cls co wv v ∧ (0 < ds → v ≤ ds * (i.thickness + t / 20))) ∧
      cls' = cls := by
  unfold calculate at h
  obtain ⟨ht0, _, ht2⟩ := tape_is_thickest tapes
  revert h ht0 ht2
  generalize thickerTape tapes (0, 0) = tape
  obtain ⟨t, ds⟩ := tape
  intro h ht0 ht2
  simp only at h ht0 ht2
  by_cases htz : t = 0
  · rw [if_pos htz] at h; simp at h
  rw [if_neg htz] at h
  have htp : 0 < t := lt_of_le_of_ne ht0 (Ne.symm htz)
  have htm : (some t, ds) ∈ tapes := by
    rcases ht2 with e | e
    · exact absurd e htz
    · exact e
  cases coord with
  | none => simp at h
  | some co =>
    simp only at h
    by_cases hb : am = false ∧ aw = false
    · rw [if_pos hb] at h; simp at h
    rw [if_neg hb] at h
    -- strength of the tapes from the bound on the quotient
    have strength : ∀ (v : K) (c : Choice K) (n : Nat), c.layers ≤ n → v / ds / t ≤ c.layers + 1 / 20 →
        0 < ds → v ≤ ds * (t * n + t / 20) := by
      intro v c n hcn hq hds
      have h1 : (c.layers : K) ≤ n := by exact_mod_cast hcn
      have h2 : v / ds / t ≤ n + 1 / 20 := by linarith
      rw [div_div, div_le_iff₀ (mul_pos hds htp)] at h2
      calc v ≤ (n + 1 / 20) * (ds * t) := h2
        _ = ds * (t * n + t / 20) := by ring
    -- common end
    have finish_ok : ∀ c : Choice K, 1 ≤ c.layers → finish am t co.dti c = some i →
        1 ≤ i.layers ∧ i.thickness = t * i.layers ∧ co.dti ≤ i.thickness + t / 20 ∧
        i.margin = c.creepage ∧ (am = false → i.margin ≤ 0) ∧ c.layers ≤ i.layers := by
      intro c hc hf
      unfold finish at hf
      split at hf
      · cases hf
      · rename_i hm
        simp only [Option.some.injEq] at hf
        subst hf
        have := raise_ge (dti := co.dti) htp hc
        refine ⟨le_trans hc this.1, rfl, this.2, rfl, ?_, this.1⟩
        intro ham
        by_contra hh
        exact hm ⟨not_le.mp hh, ham⟩
    have simple : ∀ f, cls ≠ .double → cls ≠ .reinforced →
        ∀ c, chooseSimple f l r fiw aw co.withstand co.creepage ds t = .ok c →
        finish am t co.dti c = some i →
        1 ≤ i.layers ∧ i.thickness = t * i.layers ∧
        co.dti ≤ i.thickness + t / 20 ∧
        (i.margin = co.creepage ∨ (i.margin = 0 ∧ aw = true ∧
          WiresProvide cls co wv l r fiw (if cls = .reinforced then 3 else 2))) ∧
        (am = false → i.margin ≤ 0) ∧
        ((aw = true ∧ WiresProvide cls co wv l r fiw
            (if cls = .double ∨ cls = .reinforced then 3 else 1)) ∨
          ∃ v, TapeVoltage cls co wv v ∧ (0 < ds → v ≤ ds * (i.thickness + t / 20))) := by
      intro f n1 n2 c hc hf
      obtain ⟨n, hn, hl, hm, he⟩ := chooseSimple_ok hc
      obtain ⟨g1, g2, g3, g4, g5, g6⟩ := finish_ok c hl hf
      refine ⟨g1, g2, g3, ?_, g5, ?_⟩
      · rw [if_neg n2, g4]
        rcases hm with hm | ⟨z, a, k⟩
        · exact Or.inl hm
        · exact Or.inr ⟨z, a, _, n, Or.inl rfl, hn, k⟩
      · rw [if_neg (by simp [n1, n2])]
        rcases he with ⟨a, k⟩ | he
        · exact Or.inl ⟨a, _, n, Or.inl rfl, hn, k⟩
        · right
          exact ⟨co.withstand, Or.inl rfl, fun hds => by rw [g2]; exact strength _ c _ g6 he hds⟩
    refine ⟨t, ds, co, htm, htp, rfl, ?_⟩
    have wrap : ∀ (P : Prop), P → cls' = cls → P ∧ cls' = cls := fun P a b => ⟨a, b⟩
    cases cls with
    | functional =>
      simp only at h
      cases hc : chooseSimple true l r fiw aw co.withstand co.creepage ds t with
      | throw => rw [hc] at h; simp at h
      | ub => rw [hc] at h; simp at h
      | ok c =>
        rw [hc] at h
        simp only [Prod.mk.injEq, Res.ok.injEq] at h
        obtain ⟨a1, a2, a3, a4, a5, a6⟩ := simple true (by simp) (by simp) c hc h.1
        exact ⟨a1, a2, a3, a4, a5, a6, h.2.symm⟩
    | basic =>
      simp only at h
      cases hc : chooseSimple false l r fiw aw co.withstand co.creepage ds t with
      | throw => rw [hc] at h; simp at h
      | ub => rw [hc] at h; simp at h
      | ok c =>
        rw [hc] at h
        simp only [Prod.mk.injEq, Res.ok.injEq] at h
        obtain ⟨a1, a2, a3, a4, a5, a6⟩ := simple false (by simp) (by simp) c hc h.1
        exact ⟨a1, a2, a3, a4, a5, a6, h.2.symm⟩
    | supplementary =>
      simp only at h
      cases hc : chooseSimple false l r fiw aw co.withstand co.creepage ds t with
      | throw => rw [hc] at h; simp at h
      | ub => rw [hc] at h; simp at h
      | ok c =>
        rw [hc] at h
        simp only [Prod.mk.injEq, Res.ok.injEq] at h
        obtain ⟨a1, a2, a3, a4, a5, a6⟩ := simple false (by simp) (by simp) c hc h.1
        exact ⟨a1, a2, a3, a4, a5, a6, h.2.symm⟩
    | reinforced =>
      simp only at h
      cases hc : chooseReinforced l r fiw aw co.withstand co.creepage ds t with
      | throw => rw [hc] at h; simp at h
      | ub => rw [hc] at h; simp at h
      | ok c =>
        rw [hc] at h
        simp only [Prod.mk.injEq, Res.ok.injEq] at h
        obtain ⟨n, hn, hl, hm, he⟩ := chooseReinforced_ok hc
        obtain ⟨g1, g2, g3, g4, g5, g6⟩ := finish_ok c hl h.1
        refine ⟨g1, g2, g3, ?_, g5, ?_, h.2.symm⟩
        · rw [if_pos rfl, g4]
          rcases hm with hm | ⟨z, a, k⟩
          · exact Or.inl hm
          · exact Or.inr ⟨z, a, _, n, Or.inl rfl, hn, k⟩
        · rw [if_pos (Or.inr rfl)]
          rcases he with ⟨a, k⟩ | he
          · exact Or.inl ⟨a, _, n, Or.inl rfl, hn, k⟩
          · right
            exact ⟨co.withstand, Or.inl rfl, fun hds => by rw [g2]; exact strength _ c _ g6 he hds⟩
    | double =>
      simp only at h
      cases hc : chooseDouble l r fiw aw wv co.withstand co.creepage ds t with
      | mk res cd =>
        rw [hc] at h
        cases res with
        | throw => simp at h
        | ub => simp at h
        | ok c =>
          simp only [Prod.mk.injEq, Res.ok.injEq] at h
          obtain ⟨hcd, vb, vs, n, m, hvb, hvs, hn, hm', hl, hm, he⟩ := chooseDouble_ok hc
          obtain ⟨g1, g2, g3, g4, g5, g6⟩ := finish_ok c hl h.1
          refine ⟨g1, g2, g3, ?_, g5, ?_, by rw [← h.2, hcd]⟩
          · rw [if_neg (by simp), g4]
            rcases hm with hm | ⟨z, a, k | k⟩
            · exact Or.inl hm
            · exact Or.inr ⟨z, a, _, n, Or.inl rfl, hn, k⟩
            · exact Or.inr ⟨z, a, _, m, Or.inr ⟨rfl, vb, vs, hvb, hvs, rfl⟩, hm', k⟩
          · rw [if_pos (Or.inl rfl)]
            rcases he with ⟨a, k | k⟩ | he | he
            · exact Or.inl ⟨a, _, n, Or.inl rfl, hn, k⟩
            · exact Or.inl ⟨a, _, m, Or.inr ⟨rfl, vb, vs, hvb, hvs, rfl⟩, hm', k⟩
            · right
              exact ⟨co.withstand, Or.inl rfl, fun hds => by rw [g2]; exact strength _ c _ g6 he hds⟩
            · right
              exact ⟨max vb vs, Or.inr ⟨rfl, vb, vs, hvb, hvs, rfl⟩,
                fun hds => by rw [g2]; exact strength _ c _ g6 he hds⟩

/-- C26: the required distance is fully reached when it is a whole number of tenths of a tape. -/
theorem thickness_exact {cls cls' : Cls} {tapes : List (Option K × K)} {l r : Wire K} {fiw am aw : Bool}
    {co : Coordination K} {wv : Cls → Option K} {i : Interface K}
    (h : calculate cls tapes l r fiw am aw (some co) wv = (.ok (some i), cls'))
    (hten : ∃ k : ℤ, co.dti = k * ((thickerTape tapes (0, 0)).1 / 10)) : co.dti ≤ i.thickness := by
  obtain ⟨ht0, _, _⟩ := tape_is_thickest tapes
  obtain ⟨k, hk⟩ := hten
  have main : ∀ (t : K) (c : Choice K), 0 < t → co.dti = k * (t / 10) → finish am t co.dti c = some i →
      co.dti ≤ i.thickness := by
    intro t c htp hk hf
    unfold finish at hf
    split at hf
    · cases hf
    · simp only [Option.some.injEq] at hf
      subst hf
      simp only
      unfold raiseToDti
      split
      · have h1 := toNat_ceil_ge (roundFloat (co.dti / t) 1)
        have h2 : roundFloat (co.dti / t) 1 = co.dti / t := by
          unfold roundFloat
          have e : co.dti / t * 10 ^ 1 = ((k : ℤ) : K) := by
            rw [hk]; field_simp
          rw [e, Round.round_intCast, hk]
          field_simp
        rw [h2] at h1
        have h3 := mul_le_mul_of_nonneg_left h1 htp.le
        rw [mul_div_cancel₀ _ htp.ne'] at h3
        rw [h2]
        exact h3
      · rename_i hh; exact (not_le.mp hh).le
  unfold calculate at h
  revert h ht0 hk
  generalize thickerTape tapes (0, 0) = tape
  obtain ⟨t, ds⟩ := tape
  intro h ht0 hk
  simp only at h ht0 hk
  by_cases htz : t = 0
  · rw [if_pos htz] at h; simp at h
  rw [if_neg htz] at h
  have htp : 0 < t := lt_of_le_of_ne ht0 (Ne.symm htz)
  by_cases hb : am = false ∧ aw = false
  · rw [if_pos hb] at h; simp at h
  rw [if_neg hb] at h
  split at h
  · simp at h
  · simp at h
  · rename_i c _
    simp only [Prod.mk.injEq, Res.ok.injEq] at h
    exact main t c htp hk h.1

/-- How often one coating covers a withstand voltage: not at all unless its breakdown voltage exceeds it; otherwise
once per stated layer, and without stated layers once, except three times for a fully insulated wire of a grade
above 3. -/
inductive CoversTimes (c : Coating K) (bd v : K) (fiw : Bool) : Nat → Prop where
  | weak : bd ≤ v → CoversTimes c bd v fiw 0
  | layers {n : Nat} : v < bd → c.layers = some n → CoversTimes c bd v fiw n
  | fullyInsulated {g : Int} : v < bd → c.layers = none → c.grade = some g → fiw = true → 4 ≤ g →
      CoversTimes c bd v fiw 3
  | lowGrade {g : Int} : v < bd → c.layers = none → c.grade = some g → fiw = true → g ≤ 3 →
      CoversTimes c bd v fiw 1
  | graded {g : Int} : v < bd → c.layers = none → c.grade = some g → fiw = false → CoversTimes c bd v fiw 1
  | plain : v < bd → c.layers = none → c.grade = none → CoversTimes c bd v fiw 1

/-- C26: two wires whose coatings state a breakdown voltage cover the withstand voltage as often as their coatings
do together. -/
theorem times_sum (l1 l2 : Bool) (s1 s2 : Option (Coating K)) (c1 c2 : Coating K) (b1 b2 v : K) (fiw : Bool)
    (h1 : c1.breakdown = some b1) (h2 : c2.breakdown = some b2) :
    ∃ n m, times ⟨l1, some c1, s1⟩ ⟨l2, some c2, s2⟩ v fiw = some (n + m) ∧
      CoversTimes c1 b1 v fiw n ∧ CoversTimes c2 b2 v fiw m := by
  have key : ∀ (c : Coating K) (b : K), CoversTimes c b v fiw (coatingShare c b v fiw) := by
    intro c b
    unfold coatingShare
    by_cases hb : b > v
    · rw [if_pos hb]
      cases hl : c.layers with
      | some n => exact .layers hb hl
      | none =>
        cases hg : c.grade with
        | none => exact .plain hb hl hg
        | some g =>
          cases hf : fiw with
          | false => exact .graded hb hl hg rfl
          | true =>
            by_cases h3 : g > 3
            · simp only [if_true, if_pos h3]
              exact .fullyInsulated hb hl hg rfl (by omega)
            · simp only [if_true, if_neg h3]
              exact .lowGrade hb hl hg rfl (by omega)
    · rw [if_neg hb]; exact .weak (not_lt.mp hb)
  refine ⟨_, _, ?_, key c1 b1, key c2 b2⟩
  simp only [times, wireShare, h1, h2]

/-- C26: without an insulation material that states a positive tape thickness there is no interface, no exception
and no change to the inputs, whatever the rest. -/
theorem no_tape_no_interface (cls : Cls) (tapes : List (Option K × K)) (left right : Wire K) (fiw am aw : Bool)
    (co : Option (Coordination K)) (wv : Cls → Option K) (h : ∀ th ds, (some th, ds) ∈ tapes → th ≤ 0) :
    calculate cls tapes left right fiw am aw co wv = (.ok none, cls) := by
  have key : ∀ (l : List (Option K × K)), (∀ th ds, (some th, ds) ∈ l → th ≤ 0) → thickerTape l (0, 0) = (0, 0) := by
    intro l
    induction l with
    | nil => intro _; rfl
    | cons e l ih =>
      obtain ⟨o, x⟩ := e
      intro hl
      have hl' : ∀ th ds, (some th, ds) ∈ l → th ≤ 0 := fun th ds hm => hl th ds (List.mem_cons_of_mem _ hm)
      cases o with
      | none => simpa only [thickerTape] using ih hl'
      | some th =>
        have h0 : ¬ th > 0 := not_lt.mpr (hl th x List.mem_cons_self)
        simp only [thickerTape, if_neg h0]
        exact ih hl'
  unfold calculate
  simp [key tapes h]

example : calculate (K := ℚ) .basic [(none, 5)] ⟨false, none, none⟩ ⟨false, none, none⟩ true false false none
    (fun _ => none) = (.ok none, .basic) := no_tape_no_interface _ _ _ _ _ _ _ _ _ (by simp)

/-- C26, what fails: the rounding to tenths before rounding up lets the thickness fall below the required
distance. Tape of 99 µm, distance through insulation of 0.4 mm (IEC 62368-1): four tapes, 0.396 mm. -/
theorem too_thin :
    calculate (K := ℚ) .reinforced [(some (99 / 10 ^ 6), 10 ^ 9)]
      ⟨false, none, none⟩ ⟨false, none, none⟩ true true true (some ⟨4000, 6 / 1000, 4 / 10 ^ 4⟩) (fun _ => some 2000)
      = (.ok (some ⟨4, 396 / 10 ^ 6, 6 / 1000, false⟩), .reinforced)
    ∧ (396 / 10 ^ 6 : ℚ) < 4 / 10 ^ 4 := by decide +kernel

/-- C26, what fails: if the withstand voltage of a part of double insulation cannot be computed, the exception
leaves the inputs with another insulation type. -/
theorem type_leaks_on_exception :
    (calculate (K := ℚ) .double [(some (1 / 10 ^ 4), 10 ^ 8)]
      ⟨false, none, none⟩ ⟨false, none, none⟩ true true true (some ⟨4000, 6 / 1000, 0⟩)
      (fun c => if c = .double then some 4000 else none)) = (.throw, .basic) := by decide +kernel

/-- An interface for double insulation between a triple insulated wire and an enamelled wire: one mechanical
tape and no margin. -/
example : calculate (K := ℚ) .double [(some (1 / 10 ^ 4), 10 ^ 8), (none, 5)]
      ⟨false, some ⟨some 6000, some 3, none⟩, none⟩ ⟨false, some ⟨some 1000, none, some 1⟩, none⟩ false false true
      (some ⟨4000, 6 / 1000, 0⟩) (fun _ => some 2000)
    = (.ok (some ⟨1, 1 / 10 ^ 4, 0, true⟩), .double) := by decide +kernel

/-- Basic insulation without insulated wire: margin kept, tapes for the voltage. -/
example : calculate (K := ℚ) .basic [(some (1 / 10 ^ 4), 10 ^ 7)]
      ⟨false, some ⟨some 1000, none, some 1⟩, none⟩ ⟨false, some ⟨some 1000, none, some 1⟩, none⟩ false true false
      (some ⟨2500, 6 / 1000, 2 / 10 ^ 4⟩) (fun _ => some 2000)
    = (.ok (some ⟨3, 3 / 10 ^ 4, 6 / 1000, false⟩), .basic) := by decide +kernel

end Verif.SectionInterface
