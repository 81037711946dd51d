import Verif.WireAdvice.CandProps

/-! # Parallels, proximity, the part of the section, and when there is an answer

Theorems of C290, C291, C292 and C297. -/

set_option linter.unusedSectionVars false

namespace Verif.WireAdvice

open Verif.Scoring (Num)

variable {K : Type} [Field K] [LinearOrder K] [IsStrictOrderedRing K]

/-! ## More parallels of the same wire -/

theorem part_parallels {e : Env K} {sec : Section K} {q : Asked} (hq : q.sections ≠ 0) (hs : Sound e sec) {a b : Cand K}
    (hw : a.wire = b.wire) (hn : 0 ≤ a.parallels) (hab : a.parallels < b.parallels) (ht : 0 < q.turns)
    (hsz : ∀ w h, Sizes b.wire w h → 0 ≤ w ∧ 0 ≤ h) {t : K} (hb : Part e sec q b t) : ∃ u, Part e sec q a u ∧ u ≤ t := by
  obtain ⟨w, h, hwh, he⟩ := hb
  have ha : Sizes a.wire w h := hw ▸ hwh
  refine ⟨_, (part_of hq hs ha _).mpr rfl, ?_⟩
  rw [(part_of hq hs hwh t).mp ⟨w, h, hwh, he⟩]
  have hs' : 0 < sectionArea e.pi sec := hs
  apply div_le_div_of_nonneg_right _ hs'.le
  unfold neededArea
  apply mul_le_mul_of_nonneg_left _ (mul_nonneg (hsz w h hwh).1 (hsz w h hwh).2)
  apply div_le_div_of_nonneg_right _ (Nat.cast_nonneg _)
  exact_mod_cast mul_le_mul_of_nonneg_right hab.le ht.le

theorem acceptable_fewer {cfg : Config K} {e : Env K} {sec : Section K} {q : Asked} (hq : q.sections ≠ 0) (hs : Sound e sec) {a b : Cand K}
    (hw : a.wire = b.wire) (hn : 0 ≤ a.parallels) (hab : a.parallels < b.parallels) (ht : 0 < q.turns)
    (hsz : ∀ w h, Sizes b.wire w h → 0 ≤ w ∧ 0 ≤ h) {d : List (Cand K)} (hb : Acceptable cfg e sec q d b) : Acceptable cfg e sec q d a := by
  obtain ⟨⟨h1, h2⟩, h3, h4, h5⟩ := hb
  refine ⟨⟨fun hf => ?_, hw ▸ h2⟩, fun hi => hw ▸ h3 hi, fun hS => ?_, fun hS => ?_⟩
  · have := h1 (hw ▸ hf)
    have := mul_le_mul_of_nonneg_right hab.le ht.le
    omega
  · obtain ⟨t, p1, p2⟩ := h4 hS
    obtain ⟨u, p3, p4⟩ := part_parallels hq hs hw hn hab ht hsz p1
    exact ⟨u, p3, lt_of_le_of_lt p4 p2⟩
  · obtain ⟨t, p1, p2⟩ := h5 hS
    obtain ⟨u, p3, p4⟩ := part_parallels hq hs hw hn hab ht hsz p1
    exact ⟨u, p3, lt_of_le_of_lt p4 p2⟩

/-- The smaller of two values has no smaller inverted share. -/
theorem share_anti {vs : List K} {u v s t : K} (hu : u ∈ vs) (hv : v ∈ vs) (h1 : Share true vs u s) (h2 : Share true vs v t) (huv : u ≤ v) :
    t ≤ s := by
  rcases lt_or_eq_of_le huv with h | h
  · have := share_mono hu hv h1 h2 h
    simp only [if_true] at this
    exact this.le
  · subst h
    exact (share_unique h1 h2).symm.le

/-- **C290.** If a wire is advised with more parallels than another candidate of the same wire, that other one is advised too, ahead of it
and with a strictly better score. -/
theorem fewer_ahead [FloorRing K] {s : Allowed} {cfg : Config K} {e : Env K} {sec : Section K} {cur : Current K} {q : Asked} {maximum : ℕ}
    {wires : List (Wire K)} {r : List (Cand K × K)} {p f : K} (hq : q.sections ≠ 0) (hs : Sound e sec) (ht : 0 < q.turns)
    (hf : frequencyOf cur = .ok f) (hf0 : 0 < f) (h : advise s cfg e sec cur q maximum wires = .ok (r, p))
    {y : Cand K × K} (hy : y ∈ r) {c : Cand K} {w : Wire K} (hw : w ∈ wires) (ho : Offered s cfg e sec cur w c)
    (hc : c.wire = y.1.wire) (hn : 0 ≤ c.parallels) (hlt : c.parallels < y.1.parallels)
    (hsz : ∀ w h, Sizes y.1.wire w h → 0 ≤ w ∧ 0 ≤ h) (hsm : ∀ d, smallest y.1.wire = some d → 0 < d) (hk : y.1.wire.conductors ≠ some 0) :
    ∃ x : Cand K × K, x.1 = c ∧ y.2 < x.2 ∧ ∃ before after, r = before ++ x :: after ∧ y ∈ after := by
  classical
  obtain ⟨d, full, f', m, hd, hf', hr, hord, hperm, hm, hsc⟩ := ranking hq hs h
  rw [hf] at hf'
  simp only [Res.ok.injEq] at hf'
  subst hf'
  have hyf : y ∈ full := List.mem_of_mem_take (hr ▸ hy)
  obtain ⟨a1, a2⟩ := List.mem_filter.mp (hperm.mem_iff.mp (List.mem_map_of_mem hyf))
  have hacc : Acceptable cfg e sec q d y.1 := by simpa using a2
  have hcacc := acceptable_fewer hq hs hc hn hlt ht hsz hacc
  have hcd : c ∈ d := (dataset_mem hd c).mpr ⟨w, hw, ho⟩
  have hcf : c ∈ full.map Prod.fst := hperm.mem_iff.mpr (List.mem_filter.mpr ⟨hcd, by simpa using hcacc⟩)
  obtain ⟨x, hx, hxc⟩ := List.mem_map.mp hcf
  have mx : x.1 ∈ full.map Prod.fst := List.mem_map_of_mem hx
  have my : y.1 ∈ full.map Prod.fst := List.mem_map_of_mem hyf
  have hxy : y.2 < x.2 := by
    obtain ⟨ax, rx, kx, px, b1, b2, b3, b4, b5, b6, b7⟩ := hsc x hx
    obtain ⟨ay, ry, ky, py, c1, c2, c3, c4, c5, c6, c7⟩ := hsc y hyf
    obtain ⟨m1, m2, m3, dx, m4, _, m5⟩ := hm x hx
    obtain ⟨n1, n2, n3, dy, n4, _, n5⟩ := hm y hyf
    have hwe : x.1.wire = y.1.wire := by rw [hxc, hc]
    have ea : ay ≤ ax := by
      by_cases hS : SomeFit cfg e sec q d
      · rw [b1 (by simpa using hS), c1 (by simpa using hS)]
      · obtain ⟨u, p3, p4⟩ := part_parallels hq hs hc hn hlt ht hsz n1
        have : m.part x.1 = u := by
          obtain ⟨w1, h1, z1, z2⟩ := m1
          rw [(part_of hq hs z1 (m.part x.1)).mp ⟨w1, h1, z1, z2⟩]
          rw [← hxc] at p3
          rw [(part_of hq hs z1 u).mp p3]
        exact share_anti (List.mem_map_of_mem mx) (List.mem_map_of_mem my) (b2 (by simpa using hS)) (c2 (by simpa using hS)) (this ▸ p4)
    have er : ry = rx := by
      rw [hwe, n2] at m2
      simp only [Option.some.injEq, Num.fin.injEq] at m2
      rw [← m2] at b3
      exact share_unique c3 b3
    have ek : ky = kx := by
      by_cases hh : cur.harmonics = true
      · have m3' := m3 hh
        rw [hwe, n3 hh] at m3'
        simp only [Option.some.injEq, Num.fin.injEq] at m3'
        have b4' := b4 hh
        rw [← m3'] at b4'
        exact share_unique (c4 hh) b4'
      · rw [Bool.not_eq_true] at hh
        rw [b5 hh, c5 hh]
    have ep : py < px := by
      have hlt2 : m.proximity x.1 < m.proximity y.1 := by
        rw [hwe, n4] at m4
        simp only [Option.some.injEq] at m4
        have hdy := hsm dy n4
        rw [hwe, ← m4] at m5
        have hkc : (0 : K) < ((y.1.wire.conductors.getD 1 : ℕ) : K) := by
          apply Nat.cast_pos.mpr
          cases hcn : y.1.wire.conductors with
          | none => simp
          | some k =>
            simp only [Option.getD_some]
            rcases Nat.eq_zero_or_pos k with h0 | h0
            · rw [h0] at hcn; exact absurd hcn hk
            · exact h0
        have hxp : x.1.parallels = c.parallels := by rw [hxc]
        have hp1 : (0 : K) ≤ (x.1.parallels : K) := by rw [hxp]; exact_mod_cast hn
        have hp2 : (x.1.parallels : K) < (y.1.parallels : K) := by rw [hxp]; exact_mod_cast hlt
        have hT : (0 : K) < (q.turns : K) := by exact_mod_cast ht
        have hsq : (((y.1.wire.conductors.getD 1 : ℕ) : K) * x.1.parallels * q.turns) ^ 2 <
            (((y.1.wire.conductors.getD 1 : ℕ) : K) * y.1.parallels * q.turns) ^ 2 := by
          apply pow_lt_pow_left₀ _ (by positivity) (by norm_num)
          exact mul_lt_mul_of_pos_right (mul_lt_mul_of_pos_left hp2 hkc) hT
        have : m.proximity x.1 * f < m.proximity y.1 * f := by
          rw [m5, n5]
          exact mul_lt_mul_of_pos_left hsq hdy
        exact lt_of_mul_lt_mul_right this hf0.le
      have := share_mono (List.mem_map_of_mem mx) (List.mem_map_of_mem my) b6 c6 hlt2
      simpa using this
    rw [b7, c7, er, ek]
    linarith
  refine ⟨x, hxc, hxy, ?_⟩
  obtain ⟨l₁, l₂, hl⟩ := List.mem_iff_append.mp hy
  have hfull : full = l₁ ++ y :: (l₂ ++ full.drop maximum) := by
    conv_lhs => rw [← List.take_append_drop maximum full, ← hr, hl]
    simp
  have hxl : x ∈ l₁ := by
    rw [hfull] at hx hord
    rcases List.mem_append.mp hx with h1 | h1
    · exact h1
    · exfalso
      rcases List.mem_cons.mp h1 with h2 | h2
      · rw [h2] at hxy; exact lt_irrefl _ hxy
      · have := (List.pairwise_cons.mp (List.pairwise_append.mp hord).2.1).1 x h2
        rcases this with h3 | ⟨h3, _⟩
        · exact lt_asymm hxy h3
        · exact hxy.ne h3
  obtain ⟨a, b, hab⟩ := List.mem_iff_append.mp hxl
  exact ⟨a, b ++ y :: l₂, by rw [hl, hab]; simp, by simp⟩

/-! ## Proximity -/

theorem share_scale {vs : List K} {v s k : K} (hk : 0 < k) (h : Share true vs v s) : Share true (vs.map (· * k)) (v * k) s := by
  obtain ⟨a, ha, b, hb, hab, e, f⟩ := h
  refine ⟨a * k, List.mem_map_of_mem ha, b * k, List.mem_map_of_mem hb, ?_, ?_, ?_⟩
  · intro x hx
    obtain ⟨y, hy, rfl⟩ := List.mem_map.mp hx
    exact ⟨mul_le_mul_of_nonneg_right (hab y hy).1 hk.le, mul_le_mul_of_nonneg_right (hab y hy).2 hk.le⟩
  · intro h1; exact e (mul_right_cancel₀ hk.ne' h1)
  · intro h1
    have := f (lt_of_mul_lt_mul_right h1 hk.le)
    simp only [if_true] at this ⊢
    linear_combination k * this

theorem proximity_eq {t : ℤ} {f : K} (hf : f ≠ 0) (c : Cand K) :
    proximity t f c = (orThrow (smallest c.wire)).bind fun d =>
      .ok (some (.fin (d / f * ((((c.wire.conductors.getD 1 : ℕ) : ℤ) * c.parallels * t : ℤ) : K) ^ 2))) := by
  unfold proximity divide timesSquare
  cases smallest c.wire with
  | none => rfl
  | some d => simp only [orThrow, Res.bind]; rw [if_neg hf]

/-- **C291.** What the proximity of the turns adds to the scores does not depend on what is handed as depth of skin, as long as it is
positive. -/
theorem depth_irrelevant (t : ℤ) {f g : K} (hf : 0 < f) (hg : 0 < g) (l : List (Cand K × K)) :
    step true (proximity t f) l = step true (proximity t g) l := by
  have hans : ∀ c, Answers (proximity t f) c ↔ Answers (proximity t g) c := by
    intro c
    unfold Answers
    rw [proximity_eq hf.ne', proximity_eq hg.ne']
    cases smallest c.wire <;> simp [orThrow, Res.bind]
  have hpass : ∀ c, passes (proximity t f) c = passes (proximity t g) c := by
    intro c
    unfold passes
    rw [proximity_eq hf.ne', proximity_eq hg.ne']
    cases smallest c.wire <;> simp [orThrow, Res.bind]
  have hraw : ∀ c, raw (proximity t g) c = raw (proximity t f) c * (f / g) := by
    intro c
    unfold raw
    rw [proximity_eq hf.ne', proximity_eq hg.ne']
    cases smallest c.wire with
    | none => simp [orThrow, Res.bind]
    | some d =>
      simp only [orThrow, Res.bind]
      field_simp
  have hadd : added true (proximity t f) l = added true (proximity t g) l := by
    unfold added
    simp only [hpass]
    refine List.map_congr_left fun c hc => ?_
    congr 2
    have hm : raw (proximity t f) c.1 ∈ ((l.filter (fun c => passes (proximity t g) c.1)).map fun c => raw (proximity t f) c.1) :=
      List.mem_map.mpr ⟨c, hc, rfl⟩
    have h1 := share_scale (div_pos hf hg) (normal_share true hm)
    have hm2 : raw (proximity t g) c.1 ∈ ((l.filter (fun c => passes (proximity t g) c.1)).map fun c => raw (proximity t g) c.1) :=
      List.mem_map.mpr ⟨c, hc, rfl⟩
    have h2 := normal_share true hm2
    refine share_unique ?_ h2
    rw [List.map_map] at h1
    rw [hraw]
    have e1 : ((fun x => x * (f / g)) ∘ fun c : Cand K × K => raw (proximity t f) c.1) = fun c => raw (proximity t g) c.1 := by
      funext c; simp [hraw]
    rw [e1] at h1
    exact h1
  have key : ∀ out, step true (proximity t f) l = .ok out ↔ step true (proximity t g) l = .ok out := by
    intro out
    rw [step_eq, step_eq, hadd]
    simp only [hans]
  have nub : ∀ (h : K) (l : List (Cand K × K)), step true (proximity t h) l ≠ .ub := by
    intro h l
    have hk : ∀ l : List (Cand K × K), keep (proximity t h) l ≠ .ub := by
      intro l
      induction l with
      | nil => simp [keep]
      | cons c cs ih =>
        simp only [keep]
        have : proximity t h c.1 ≠ .ub := by
          unfold proximity
          cases smallest c.1.wire <;> simp [orThrow, Res.bind]
        cases h1 : proximity t h c.1 with
        | ub => exact absurd h1 this
        | throws => simp [Res.bind]
        | ok o => cases h2 : keep (proximity t h) cs with
          | ub => exact absurd h2 ih
          | throws => simp [Res.bind]
          | ok r => simp [Res.bind]
    have hfin : ∀ k : List ((Cand K × K) × Num K), finite k ≠ .ub := by
      intro k
      induction k with
      | nil => simp [finite]
      | cons c cs ih =>
        obtain ⟨c1, c2⟩ := c
        cases c2 with
        | fin v =>
          simp only [finite]
          cases h2 : finite cs with
          | ub => exact absurd h2 ih
          | throws => simp [Res.bind]
          | ok r => simp [Res.bind]
        | _ => simp [finite]
    unfold step
    cases h1 : keep (proximity t h) l with
    | ub => exact absurd h1 (hk l)
    | throws => simp [Res.bind]
    | ok k => cases h2 : finite k with
      | ub => exact absurd h2 (hfin k)
      | throws => simp [Res.bind, h2]
      | ok r => simp [Res.bind, h2]
  cases h1 : step true (proximity t f) l with
  | ok out => exact ((key out).mp h1).symm
  | ub => exact absurd h1 (nub f l)
  | throws => cases h2 : step true (proximity t g) l with
    | ok out => rw [(key out).mpr h2] at h1; simp at h1
    | ub => exact absurd h2 (nub g l)
    | throws => rfl

/-- **C291.** At frequency zero nothing is ever advised: with a candidate left the adviser throws. -/
theorem no_frequency [FloorRing K] {s : Allowed} {cfg : Config K} {e : Env K} {sec : Section K} {cur : Current K} {q : Asked} {maximum : ℕ}
    {wires : List (Wire K)} {r : List (Cand K × K)} {p : K} (hq : q.sections ≠ 0) (hs : Sound e sec) (hf : frequencyOf cur = .ok 0)
    (h : advise s cfg e sec cur q maximum wires = .ok (r, p)) : r = [] := by
  obtain ⟨d, full, f, m, _, hf', hr, _, _, hm, _⟩ := ranking hq hs h
  rw [hf] at hf'
  simp only [Res.ok.injEq] at hf'
  subst hf'
  have : full = [] := by
    apply List.eq_nil_iff_forall_not_mem.mpr
    intro x hx
    obtain ⟨_, _, _, d, _, h0, _⟩ := hm x hx
    exact h0 rfl
  rw [hr, this]; simp

/-! ## The largest part of the section -/

theorem proportions_spec {e : Env K} {sec : Section K} {q : Asked} (hq : q.sections ≠ 0) (hs : Sound e sec) :
    ∀ {l : List (Cand K × K)} {m p : K}, proportions e sec q m l = .ok p →
      m ≤ p ∧ (∀ x ∈ l, ∃ t, Part e sec q x.1 t ∧ t ≤ p) ∧ (p = m ∨ ∃ x ∈ l, Part e sec q x.1 p)
  | [], m, p, h => by
    simp only [proportions, Res.ok.injEq] at h
    subst h; simp
  | c :: cs, m, p, h => by
    simp only [proportions] at h
    by_cases h0 : c.1.wire.hasArea = false
    · rw [if_pos h0] at h; simp at h
    · rw [if_neg h0] at h
      obtain ⟨w, hw, h⟩ := bind_ok.mp h
      obtain ⟨y, hy, h⟩ := bind_ok.mp h
      have hz : Sizes c.1.wire w y := ⟨orThrow_ok.mp hw, orThrow_ok.mp hy⟩
      obtain ⟨i1, i2, i3⟩ := proportions_spec hq hs h
      have hpart := (part_of hq hs hz _).mpr rfl
      refine ⟨le_trans (le_max_left _ _) i1, ?_, ?_⟩
      · intro x hx
        rcases List.mem_cons.mp hx with rfl | hx
        · exact ⟨_, hpart, le_trans (le_max_right _ _) i1⟩
        · exact i2 x hx
      · rcases i3 with i3 | ⟨x, hx, hp⟩
        · rcases max_choice m (neededArea q c.1 w y / sectionArea e.pi sec) with h1 | h1
          · left; rw [i3, h1]
          · right; exact ⟨c, List.mem_cons_self, by rw [i3, h1]; exact hpart⟩
        · exact Or.inr ⟨x, List.mem_cons_of_mem _ hx, hp⟩

theorem finish_spec {e : Env K} {sec : Section K} {q : Asked} {maximum : ℕ} {prev : K} {l r : List (Cand K × K)} {p : K}
    (h : finish e sec q maximum prev l = .ok (r, p)) : r = (breakTies l).take maximum ∧ proportions e sec q prev r = .ok p := by
  unfold finish at h
  obtain ⟨p', h1, h2⟩ := bind_ok.mp h
  simp only [Res.ok.injEq, Prod.mk.injEq] at h2
  obtain ⟨rfl, rfl⟩ := h2
  exact ⟨rfl, h1⟩

/-- **C292.** What the adviser reports after the search is the largest part of the section one of the advised windings takes, zero if nothing
is advised: it is less than one and a half, and less than one if some candidate fits. -/
theorem proportion_advised [FloorRing K] {s : Allowed} {cfg : Config K} {e : Env K} {sec : Section K} {cur : Current K} {q : Asked} {maximum : ℕ}
    {wires : List (Wire K)} {r : List (Cand K × K)} {p : K} (hq : q.sections ≠ 0) (hs : Sound e sec)
    (h : advise s cfg e sec cur q maximum wires = .ok (r, p)) :
    0 ≤ p ∧ (∀ x ∈ r, ∃ t, Part e sec q x.1 t ∧ t ≤ p) ∧ (p = 0 ∨ ∃ x ∈ r, Part e sec q x.1 p) ∧ p < 3 / 2 ∧
    ((∃ w ∈ wires, ∃ c, Offered s cfg e sec cur w c ∧ Alone cfg e sec q.turns c ∧ Insulated cfg e c ∧ Fits e sec q c) → p < 1) := by
  classical
  have h0 := h
  unfold advise at h
  obtain ⟨_, _, h⟩ := bind_ok.mp h
  obtain ⟨_, _, h⟩ := bind_ok.mp h
  obtain ⟨_, _, h⟩ := bind_ok.mp h
  obtain ⟨_, _, h⟩ := bind_ok.mp h
  obtain ⟨_, _, h⟩ := bind_ok.mp h
  obtain ⟨h1, h2, h3⟩ := proportions_spec hq hs (finish_spec h).2
  have uniq : ∀ {c : Cand K} {t u : K}, Part e sec q c t → Part e sec q c u → t = u := by
    rintro c t u ⟨w, y, hz, ht⟩ hu
    rw [(part_of hq hs hz t).mp ⟨w, y, hz, ht⟩, (part_of hq hs hz u).mp hu]
  refine ⟨h1, h2, h3, ?_, ?_⟩
  · rcases h3 with rfl | ⟨x, hx, hp⟩
    · norm_num
    · obtain ⟨t, ht, hlt⟩ := ((advised_offered hq hs h0).2 x hx).2.2.2
      rw [uniq hp ht]; exact hlt
  · rintro ⟨w, hw, c, ho, hA, hI, hF⟩
    rcases h3 with rfl | ⟨x, hx, hp⟩
    · norm_num
    · obtain ⟨d, full, f, m, hd, _, hr, _, hperm, _, _⟩ := ranking hq hs h0
      have hS : SomeFit cfg e sec q d := ⟨c, (dataset_mem hd c).mpr ⟨w, hw, ho⟩, hA, hI, hF⟩
      rw [hr] at hx
      obtain ⟨a, b⟩ := List.mem_filter.mp (hperm.mem_iff.mp (List.mem_map_of_mem (List.mem_of_mem_take hx)))
      have hb : Acceptable cfg e sec q d x.1 := by simpa using b
      obtain ⟨t, ht, hlt⟩ := hb.2.2.1 hS
      rw [uniq hp ht]; exact hlt

/-- **C292.** The search of planar wires reports the larger of that and what the adviser reported before. -/
theorem proportion_planar [FloorRing K] {e : Env K} {density : K} {maxParallels : ℕ} {dist : Distances K} {sec : Section K} {cur : Current K}
    {q : Asked} {maximum : ℕ} {wires : List (Wire K)} {prev : K} {r : List (Cand K × K)} {p : K} (hq : q.sections ≠ 0) (hs : Sound e sec)
    (h : advisePlanar e density maxParallels dist sec cur q maximum wires prev = .ok (r, p)) :
    prev ≤ p ∧ (∀ x ∈ r, ∃ t, Part e sec q x.1 t ∧ t ≤ p) ∧ (p = prev ∨ ∃ x ∈ r, Part e sec q x.1 p) := by
  unfold advisePlanar at h
  obtain ⟨_, _, h⟩ := bind_ok.mp h
  obtain ⟨_, _, h⟩ := bind_ok.mp h
  exact proportions_spec hq hs (finish_spec h).2

/-! ## When there is an answer -/

/-- What the adviser needs of a wire it compares. -/
def Ready (cfg : Config K) (e : Env K) (f : K) (harmonics : Bool) (u : Wire K) : Prop :=
  u.hasArea = true ∧ (∃ w h, Sizes u w h) ∧ (∃ d, smallest u = some d) ∧ (∃ v, e.resistance u f = some (.fin v)) ∧
  (harmonics = true → ∃ v, e.skin u = some (.fin v)) ∧ (cfg.insulation = true → ∃ b, e.insulated u = some b)

theorem dataset_ok [FloorRing K] {s : Allowed} {cfg : Config K} {e : Env K} {sec : Section K} {cur : Current K} :
    ∀ {ws : List (Wire K)}, (∀ w ∈ ws, TypeAllowed s sec w.type → w.type ≠ .rectangular → ∃ n, needed e cfg.density cur (cut sec w) = .ok n) →
      ∃ d, dataset s cfg e sec cur ws = .ok d
  | [], _ => ⟨[], rfl⟩
  | w :: ws, h => by
    obtain ⟨b, hb⟩ := dataset_ok (ws := ws) (fun v hv => h v (List.mem_cons_of_mem _ hv))
    have : ∃ a, offer s cfg e sec cur w = .ok a := by
      unfold offer
      by_cases hx : excluded s sec w.type = true
      · exact ⟨_, if_pos hx⟩
      · rw [if_neg hx]
        rw [Bool.not_eq_true, excluded_iff] at hx
        by_cases hr : w.type = .rectangular
        · exact ⟨_, if_pos hr⟩
        · rw [if_neg hr]
          obtain ⟨n, hn⟩ := h w List.mem_cons_self hx hr
          rw [hn, ok_bind]
          by_cases hm : cfg.maxParallels < n
          · exact ⟨_, if_pos hm⟩
          · exact ⟨_, if_neg hm⟩
    obtain ⟨a, ha⟩ := this
    exact ⟨a ++ b, by simp only [dataset]; rw [ha, ok_bind, hb, ok_bind]⟩

theorem step_total {invert : Bool} {eval : Cand K → Res (Option (Num K))} {l : List (Cand K × K)} (h : ∀ c ∈ l, Answers eval c.1) :
    ∃ out, step invert eval l = .ok out ∧ ∀ x ∈ out, ∃ y ∈ l, y.1 = x.1 := by
  refine ⟨_, (step_eq invert eval l _).mpr ⟨h, rfl⟩, fun x hx => ?_⟩
  have := (step_cands ((step_eq invert eval l _).mpr ⟨h, rfl⟩)).mem_iff.mp (List.mem_map_of_mem hx)
  obtain ⟨y, hy, e⟩ := List.mem_map.mp (List.mem_filter.mp this).1
  exact ⟨y, hy, e⟩

theorem proportions_total {e : Env K} {sec : Section K} {q : Asked} : ∀ {l : List (Cand K × K)} (m : K),
    (∀ x ∈ l, x.1.wire.hasArea = true ∧ ∃ w h, Sizes x.1.wire w h) → ∃ p, proportions e sec q m l = .ok p
  | [], m, _ => ⟨m, rfl⟩
  | c :: cs, m, h => by
    obtain ⟨h1, w, y, hw, hy⟩ := h c List.mem_cons_self
    simp only [proportions]
    rw [if_neg (by simp [h1]), hw, hy]
    simp only [orThrow, ok_bind]
    exact proportions_total _ fun x hx => h x (List.mem_cons_of_mem _ hx)

/-- **C297.** The adviser answers if the current is processed with a frequency that is not zero, a number of parallels is found for
every allowed wire that is not rectangular and the models answer about every allowed wire. -/
theorem advise_total [FloorRing K] (s : Allowed) (cfg : Config K) (e : Env K) (sec : Section K) (cur : Current K) (q : Asked) (maximum : ℕ)
    (wires : List (Wire K)) {f : K} (hf : frequencyOf cur = .ok f) (hf0 : f ≠ 0)
    (hn : ∀ w ∈ wires, TypeAllowed s sec w.type → w.type ≠ .rectangular → ∃ n, needed e cfg.density cur (cut sec w) = .ok n)
    (hr : ∀ w ∈ wires, TypeAllowed s sec w.type →
      (w.type = .rectangular → Ready cfg e f cur.harmonics w) ∧
      (w.type ≠ .rectangular → Ready cfg e f cur.harmonics (asked cur (cut sec w)))) :
    ∃ r p, advise s cfg e sec cur q maximum wires = .ok (r, p) := by
  obtain ⟨d, hd⟩ := dataset_ok hn
  have hready : ∀ c ∈ d, Ready cfg e f cur.harmonics c.wire := by
    intro c hc
    obtain ⟨w, hw, h1, h2, h3⟩ := (dataset_mem hd c).mp hc
    rcases h3 with ⟨h3, h4, _⟩ | ⟨h3, n, _, _, h4, _⟩
    · rw [h4]; exact (hr w hw h1).1 h3
    · rw [h4]; exact (hr w hw h1).2 h3
  have a1 : ∀ c : Cand K, Ready cfg e f cur.harmonics c.wire → Answers (noParallels cfg e sec q.turns) c := by
    rintro c ⟨_, ⟨w, h, hw, hh⟩, _⟩
    unfold Answers noParallels
    by_cases h1 : c.wire.type = .foil ∧ cfg.maxParallels < c.parallels * q.turns
    · left; rw [if_pos h1]
    · rw [if_neg h1, hw, hh]
      simp only [orThrow, ok_bind]
      split_ifs <;> simp
  have a2 : ∀ c : Cand K, cfg.insulation = true → Ready cfg e f cur.harmonics c.wire → Answers (insulation e) c := by
    rintro c hi ⟨_, _, _, _, _, h⟩
    obtain ⟨b, hb⟩ := h hi
    unfold Answers insulation
    rw [hb]
    cases b <;> simp [orThrow, Res.bind]
  have a3 : ∀ (b : Bool) (c : Cand K), Ready cfg e f cur.harmonics c.wire → Answers (withParallels e sec q b) c := by
    rintro b c ⟨h0, ⟨w, h, hw, hh⟩, _⟩
    unfold Answers withParallels
    rw [if_neg (by simp [h0]), hw, hh]
    simp only [orThrow, ok_bind]
    split_ifs <;> simp
  have a4 : ∀ c : Cand K, Ready cfg e f cur.harmonics c.wire → Answers (resistance e f) c := by
    rintro c ⟨_, _, _, ⟨v, hv⟩, _⟩
    right; exact ⟨v, by unfold resistance; rw [hv]; rfl⟩
  have a5 : ∀ c : Cand K, cur.harmonics = true → Ready cfg e f cur.harmonics c.wire → Answers (skinLosses e) c := by
    rintro c hh ⟨_, _, _, _, h, _⟩
    obtain ⟨v, hv⟩ := h hh
    right; exact ⟨v, by unfold skinLosses; rw [hv]; rfl⟩
  have a6 : ∀ c : Cand K, Ready cfg e f cur.harmonics c.wire → Answers (proximity q.turns f) c := by
    rintro c ⟨_, _, ⟨v, hv⟩, _⟩
    right
    rw [proximity_eq hf0, hv]
    exact ⟨_, rfl⟩
  have r0 : ∀ x ∈ d.map (fun x => ((x, 0) : Cand K × K)), Ready cfg e f cur.harmonics x.1.wire := by
    intro x hx
    obtain ⟨c, hc, rfl⟩ := List.mem_map.mp hx
    exact hready c hc
  obtain ⟨l₁, h1, m1⟩ := step_total (invert := true) (fun c hc => a1 c.1 (r0 c hc))
  have r1 : ∀ x ∈ l₁, Ready cfg e f cur.harmonics x.1.wire := fun x hx => by
    obtain ⟨y, hy, hyx⟩ := m1 x hx; exact hyx ▸ r0 y hy
  obtain ⟨l₂, h2, r2⟩ : ∃ l₂, stepIf cfg.insulation true (insulation e) l₁ = .ok l₂ ∧ ∀ x ∈ l₂, Ready cfg e f cur.harmonics x.1.wire := by
    unfold stepIf
    by_cases hi : cfg.insulation = true
    · rw [if_pos hi]
      obtain ⟨l₂, h2, m2⟩ := step_total (invert := true) (fun c hc => a2 c.1 hi (r1 c hc))
      exact ⟨l₂, h2, fun x hx => by obtain ⟨y, hy, hyx⟩ := m2 x hx; exact hyx ▸ r1 y hy⟩
    · rw [if_neg hi]; exact ⟨l₁, rfl, r1⟩
  obtain ⟨l₃, h3, r3⟩ : ∃ l₃, fitting e sec q l₂ = .ok l₃ ∧ ∀ x ∈ l₃, Ready cfg e f cur.harmonics x.1.wire := by
    unfold fitting
    obtain ⟨g, h3, m3⟩ := step_total (invert := false) (fun c hc => a3 false c.1 (r2 c hc))
    obtain ⟨g', h3', m3'⟩ := step_total (invert := false) (fun c hc => a3 true c.1 (r2 c hc))
    rw [h3, ok_bind]
    by_cases hz : g.length = 0
    · rw [if_pos hz]
      exact ⟨g', h3', fun x hx => by obtain ⟨y, hy, hyx⟩ := m3' x hx; exact hyx ▸ r2 y hy⟩
    · rw [if_neg hz]
      exact ⟨g, rfl, fun x hx => by obtain ⟨y, hy, hyx⟩ := m3 x hx; exact hyx ▸ r2 y hy⟩
  obtain ⟨l₄, h4, r4⟩ : ∃ l₄, scored e cur q.turns l₃ = .ok l₄ ∧ ∀ x ∈ l₄, Ready cfg e f cur.harmonics x.1.wire := by
    unfold scored
    rw [hf, ok_bind]
    obtain ⟨g₁, i1, n1⟩ := step_total (invert := true) (fun c hc => a4 c.1 (r3 c hc))
    have q1 : ∀ x ∈ g₁, Ready cfg e f cur.harmonics x.1.wire := fun x hx => by obtain ⟨y, hy, hyx⟩ := n1 x hx; exact hyx ▸ r3 y hy
    obtain ⟨g₂, i2, q2⟩ : ∃ g₂, stepIf cur.harmonics true (skinLosses e) g₁ = .ok g₂ ∧ ∀ x ∈ g₂, Ready cfg e f cur.harmonics x.1.wire := by
      unfold stepIf
      by_cases hi : cur.harmonics = true
      · rw [if_pos hi]
        obtain ⟨g₂, i2, n2⟩ := step_total (invert := true) (fun c hc => a5 c.1 hi (q1 c hc))
        exact ⟨g₂, i2, fun x hx => by obtain ⟨y, hy, hyx⟩ := n2 x hx; exact hyx ▸ q1 y hy⟩
      · rw [if_neg hi]; exact ⟨g₁, rfl, q1⟩
    obtain ⟨g₃, i3, n3⟩ := step_total (invert := true) (fun c hc => a6 c.1 (q2 c hc))
    exact ⟨g₃, by rw [i1, ok_bind, i2, ok_bind, i3], fun x hx => by obtain ⟨y, hy, hyx⟩ := n3 x hx; exact hyx ▸ q2 y hy⟩
  obtain ⟨p, hp⟩ := proportions_total (e := e) (sec := sec) (q := q) (l := (breakTies l₄).take maximum) 0 (fun x hx => by
    have := r4 x ((breakTies_perm l₄).mem_iff.mp (List.mem_of_mem_take hx))
    exact ⟨this.1, this.2.1⟩)
  refine ⟨(breakTies l₄).take maximum, p, ?_⟩
  unfold advise finish
  rw [hd, ok_bind, h1, ok_bind, h2, ok_bind, h3, ok_bind, h4, ok_bind, hp, ok_bind]

/-- **C297.** A current that is not processed is undefined behaviour if none of the wires is of an allowed type. -/
theorem not_processed [FloorRing K] (s : Allowed) (cfg : Config K) (e : Env K) (sec : Section K) (cur : Current K) (q : Asked) (maximum : ℕ)
    (wires : List (Wire K)) (hw : ∀ w ∈ wires, ¬ TypeAllowed s sec w.type) (hc : cur.processed = none) :
    advise s cfg e sec cur q maximum wires = .ub := by
  have hd : dataset s cfg e sec cur wires = .ok [] := by
    rw [dataset_allowed, List.filter_eq_nil_iff.mpr]
    · rfl
    · intro w h1 h2
      exact hw w h1 ((included_iff s sec w.type).mp h2)
  unfold advise
  rw [hd]
  simp [step, keep, finite, rank, sorted, stepIf, fitting, scored, frequencyOf, hc, Res.bind]

end Verif.WireAdvice
