import Verif.Standards.Props

/-! # Properties C60 to C63: what an insulation requirement covers -/

set_option linter.unusedSectionVars false

namespace Verif.Standards

open Verif.Insulation Verif.Round

variable {K : Type} [Field K] [LinearOrder K] [IsStrictOrderedRing K] [FloorRing K]
variable {P : Phys K} {q : Query K}

/-! ## Tables above the identity -/

/-- The table that maps every abscissa of `t` to itself. -/
def identityOn (t : Table K) : Table K := t.map fun r => (r.1, r.1)

theorem pl_identity (x : K) (a : K × K) (b : K × K) (l : Table K) (h : Increasing (a :: b :: l)) :
    pl x (a.1, a.1) (identityOn (b :: l)) = x := by
  have hline : ∀ u v : K, u < v → line (u, u) (v, v) x = x := by
    intro u v huv
    have : v - u ≠ 0 := sub_ne_zero.mpr huv.ne'
    unfold line
    field_simp
    ring
  induction l generalizing a b with
  | nil =>
    simp only [identityOn, List.map_cons, List.map_nil, pl]
    exact hline _ _ (Incr.head h).1
  | cons c l ih =>
    have e : identityOn (b :: c :: l) = (b.1, b.1) :: identityOn (c :: l) := rfl
    have e' : identityOn (c :: l) = (c.1, c.1) :: identityOn l := rfl
    rw [e, e']
    simp only [pl]
    split
    · exact hline _ _ (Incr.head h).1
    · rw [← e']
      exact ih b c (Incr.tail h)

theorem identity_ge {t : Table K} (h : Rows t) (hI : Rows (identityOn t)) {x v : K}
    (hv : interp (identityOn t) x = .ok v) : x ≤ v := by
  obtain ⟨a, b, l, rfl⟩ := two_rows h.2
  have e : identityOn (a :: b :: l) = (a.1, a.1) :: (b.1, b.1) :: identityOn l := rfl
  rw [e] at hv hI
  rw [interp_eq hI.1] at hv
  simp only [Val.ok.injEq] at hv
  rw [← hv]
  split
  · rename_i hx; exact hx.le
  · exact (pl_identity x a b l h.1).ge

/-- A table never below its argument. -/
def Covers (t : Table K) : Prop := ∀ x v, interp t x = .ok v → x ≤ v

theorem covers_of_B {t : Table K} (h : Rows t) (hI : Rows (identityOn t)) (hb : belowExtB (identityOn t) t = true) :
    Covers t := by
  intro x v hv
  obtain ⟨w, hw⟩ := interp_total hI.1 hI.2 x
  exact le_trans (identity_ge h hI hw) (below_of_belowExtB hI h hb x w v hw hv)

/-! ## C60: the test voltage covers the working voltage -/

/-- C60 (IEC 60664): at least the peak working voltage, at least 1200 V more than the rms working voltage (twice
that for reinforced and double insulation), and for basic insulation at least the rated impulse voltage of
table F.1. -/
theorem withstand664_covers {T : T60664 K} {w : K} (h : withstand664 P T q = .ok w) :
    q.vpeak ≤ w ∧ (q.cls.strong = false → q.vrms + 1200 ≤ w) ∧ (q.cls.strong = true → 2 * (q.vrms + 1200) ≤ w) ∧
    (q.cls.strong = false → ∀ v, FirstRow (q.vrms ≤ ·) (T.f1 q.ovc) v → v ≤ w) := by
  unfold withstand664 at h
  rw [Out.bind_eq_ok] at h
  obtain ⟨imp, hi, h⟩ := h
  cases h
  refine ⟨?_, ?_, ?_, ?_⟩
  · exact le_trans (le_max_right _ _) (le_trans (le_max_right _ _) (le_max_right _ _))
  · intro hs
    refine le_trans ?_ (le_trans (le_max_left _ _) (le_max_right _ _))
    simp [doubled, hs]
  · intro hs
    refine le_trans ?_ (le_trans (le_max_left _ _) (le_max_right _ _))
    simp only [doubled, hs, if_true]
    linarith
  · intro hs v hv
    unfold impulse664 at hi
    simp only [hs, Bool.false_eq_true, if_false] at hi
    rw [Out.ofOption_eq_ok] at hi
    rw [((lookupLe_spec _ _).1 v).mpr hv] at hi
    rw [Option.some.inj hi]
    exact le_max_left _ _

/-- C60: the condition on the tables of IEC 62368. -/
theorem t26_covers : ∀ b, Covers (Shipped.t623.t26 b) := fun b => covers_of_B (Shipped.sound623.t26 b)
  (rows_of_B ((by decide +kernel : ∀ b, rowsB (identityOn (Shipped.t623.t26 b)) = true) b))
  ((by decide +kernel : ∀ b, belowExtB (identityOn (Shipped.t623.t26 b)) (Shipped.t623.t26 b) = true) b)

/-- C60 (IEC 62368): at least the peak working voltage and the value of table 27 for the mains. -/
theorem withstand623_covers {T : T62368 K} (hT : ∀ b, Covers (T.t26 b)) {w : K} (h : withstand623 T q = .ok w) :
    q.vpeak ≤ w ∧ ∀ v, FirstRow (q.main < ·) (T.t27 q.cls.strong) v → v ≤ w := by
  unfold withstand623 at h
  rw [Out.max2_eq_ok] at h
  obtain ⟨a, b, -, hb, rfl⟩ := h
  rw [Out.max2_eq_ok] at hb
  obtain ⟨c, d, hc, hd, rfl⟩ := hb
  rw [Out.ofVal_eq_ok] at hc
  rw [Out.ofOption_eq_ok] at hd
  refine ⟨le_trans (hT _ _ _ hc) (le_trans (le_max_left _ _) (le_max_right _ _)), fun v hv => ?_⟩
  rw [((lookupLt_spec _ _).1 v).mpr hv] at hd
  rw [Option.some.inj hd]
  exact le_trans (le_max_right _ _) (le_max_right _ _)

/-- C60 (IEC 60335): for all classes but functional insulation at least 1.2 times the peak working voltage plus
950 V. -/
theorem withstand603_covers {T : T60335 K} (hq : 0 ≤ q.vpeak) {w : K} (h : withstand603 T q = .ok w) :
    (q.cls = .functional ∧ w = 0) ∨ 12 / 10 * q.vpeak + 950 ≤ w := by
  unfold withstand603 at h
  split at h
  · rename_i hc; cases h; exact Or.inl ⟨hc, rfl⟩
  · rename_i hc
    rw [Out.bind_eq_ok] at h
    obtain ⟨v, -, h⟩ := h
    cases h
    refine Or.inr (le_trans ?_ (le_max_right _ _))
    cases hcls : q.cls <;> simp only [formula7] <;> first | exact absurd hcls hc | linarith

/-- C60 (IEC 61558): up to 5000 V the shipped tables ask for at least the rms working voltage, and above 30 kHz
for at least 500 V more. The rest is false, see `withstand615_below_working_voltage`. -/
theorem withstand615_covers_partial {q : Query ℚ} {w : ℚ} (h : withstand615 Shipped.t615 q = .ok w) :
    (q.vrms ≤ 5000 → q.vrms ≤ w) ∧ (30000 < q.freq → q.vrms + 500 ≤ w) := by
  unfold withstand615 guardSupply at h
  split at h
  · simp at h
  · rw [Out.bind_eq_ok] at h
    obtain ⟨v, hv, h⟩ := h
    rw [Out.ofVal_eq_ok] at hv
    have hvx : q.vrms ≤ 5000 → q.vrms ≤ v := by
      intro hx
      have hr := Shipped.sound615.t14 q.ovc q.cls
      have hrp : Rows (prolong (Shipped.t615.t14 q.ovc q.cls) [5000]) := rows_of_B
        ((by decide +kernel : ∀ o c, rowsB (prolong (Shipped.t615.t14 o c) [5000]) = true) _ _)
      have hri : Rows (identityOn (prolong (Shipped.t615.t14 q.ovc q.cls) [5000])) := rows_of_B
        ((by decide +kernel : ∀ o c, rowsB (identityOn (prolong (Shipped.t615.t14 o c) [5000])) = true) _ _)
      obtain ⟨z, hz⟩ := interp_total hri.1 hri.2 q.vrms
      have hl : (lastOf (identityOn (prolong (Shipped.t615.t14 q.ovc q.cls) [5000]))).1 = 5000 :=
        (by decide +kernel : ∀ o c, (lastOf (identityOn (prolong (Shipped.t615.t14 o c) [5000]))).1 = 5000) _ _
      refine le_trans (identity_ge hrp hri hz) (belowIn_of_B hri hrp
        ((by decide +kernel : ∀ o c, belowInB (identityOn (prolong (Shipped.t615.t14 o c) [5000]))
          (prolong (Shipped.t615.t14 o c) [5000]) = true) _ _) (by rw [hl]; exact hx) hz ?_)
      rw [interp_prolong hr _ hrp.1]
      exact hv
    split at h
    · rename_i hf
      cases h
      exact ⟨fun hx => le_trans (hvx hx) (le_max_left _ _), fun _ => le_max_right _ _⟩
    · rename_i hf
      cases h
      exact ⟨hvx, fun h => absurd h hf⟩

/-- C60, disagreement (IEC 61558): a working voltage of 6000 V is to be tested with 5500 V. -/
theorem withstand615_below_working_voltage :
    withstand615 Shipped.t615 { sample with vrms := 6000, ovc := .iv } = .ok 5500 := by decide +kernel

/-- C60: with IEC 60664 or IEC 62368 among the standards, the required withstand voltage is at least the peak
working voltage. -/
theorem withstand_covers_working_voltage {P : Phys ℚ} {q : Query ℚ} {l : List Standard} {w : ℚ}
    (hl : Standard.iec60664 ∈ l ∨ Standard.iec62368 ∈ l)
    (h : coordinate (fun s => (withstandOf P Shipped.all q s).toOption) (some l) = some w) : q.vpeak ≤ w := by
  obtain ⟨-, h, -⟩ := coordinate_most_demanding h
  rcases hl with hl | hl
  · obtain ⟨r, hr, hrw⟩ := h _ hl
    rw [toOption_eq_some] at hr
    exact le_trans (withstand664_covers hr).1 hrw
  · obtain ⟨r, hr, hrw⟩ := h _ hl
    rw [toOption_eq_some] at hr
    exact le_trans (withstand623_covers t26_covers hr).1 hrw

example : coordinate (fun s => (withstandOf steps Shipped.all sample s).toOption)
    (some [.iec60335, .iec60664, .iec61558, .iec62368]) = some 2000 := by decide +kernel

/-! ## C61: reinforced and double insulation take twice the creepage distance -/

/-- C61 (IEC 60664): within the rounding. -/
theorem creepage664_doubles {T : T60664 K} {c d : Cls} (hc : c.strong = false) (hd : d.strong = true) {v w : K}
    (hv : creepage664 P T { q with cls := c } false = .ok v)
    (hw : creepage664 P T { q with cls := d } false = .ok w) : |w - 2 * v| ≤ 3 / (2 * 10 ^ 5) := by
  obtain ⟨a, s, ha, -, hx⟩ := creepage664_eq_ok hv
  obtain ⟨b, s', hb, -, hy⟩ := creepage664_eq_ok hw
  simp only [or_true, true_and, Bool.false_eq_true, and_false, false_and, or_false] at hx hy
  have hab : b = 2 * a := by
    unfold creepageRaw664 at ha hb
    rw [Out.bind_eq_ok] at ha hb
    obtain ⟨r, hr, ha⟩ := ha
    obtain ⟨r', hr', hb⟩ := hb
    simp only at hr hr'
    rw [hr] at hr'
    cases hr'
    rw [Out.bind_eq_ok] at ha hb
    obtain ⟨e, he, ha⟩ := ha
    obtain ⟨e', he', hb⟩ := hb
    have : creepageBase664 T { q with cls := c } (max q.vrms r) = creepageBase664 T { q with cls := d } (max q.vrms r) :=
      rfl
    simp only at he he'
    rw [this, he'] at he
    cases he
    cases ha
    cases hb
    simp only [doubled, hc, hd, if_true, Bool.false_eq_true, if_false]
    ring
  have h1 := abs_le.mp (roundFloat_near a 5)
  have h2 := abs_le.mp (roundFloat_near b 5)
  rw [hx, hy, abs_le]
  rw [hab] at h2 ⊢
  constructor <;> norm_num at h1 h2 ⊢ <;> linarith

/-- C61 (IEC 60335), up to 30 kHz and compared with classes other than functional, which have a table of their
own: within the rounding. -/
theorem creepage603_doubles {T6 : T60664 K} {T : T60335 K} {c d : Cls} (hf : q.freq ≤ 30000) (hc : c.strong = false)
    (hn : c ≠ .functional) (hd : d.strong = true) {v w : K}
    (hv : creepage603 P T6 T { q with cls := c } false = .ok v)
    (hw : creepage603 P T6 T { q with cls := d } false = .ok w) : |w - 2 * v| ≤ 3 / (2 * 10 ^ 5) := by
  have hdn : d ≠ .functional := by rintro rfl; simp [Cls.strong] at hd
  have hf' : q.freq ≤ lineFrequency := hf
  unfold creepage603 creepageRaw603 at hv hw
  simp only [Bool.false_eq_true, if_false, if_pos hf', if_neg hn, if_neg hdn] at hv hw
  rw [Out.bind_eq_ok] at hv hw
  obtain ⟨a, ha, hv⟩ := hv
  obtain ⟨b, hb, hw⟩ := hw
  cases hv
  cases hw
  rw [Out.bind_eq_ok] at ha hb
  obtain ⟨e, he, ha⟩ := ha
  obtain ⟨e', he', hb⟩ := hb
  rw [he] at he'
  cases he'
  cases ha
  cases hb
  simp only [doubled, hc, hd, if_true, Bool.false_eq_true, if_false]
  have h1 := abs_le.mp (roundFloat_near e 5)
  have h2 := abs_le.mp (roundFloat_near (e * 2) 5)
  rw [abs_le]
  constructor <;> norm_num at h1 h2 ⊢ <;> linarith

theorem ceil_doubles (x : K) (d : Nat) : 2 * ceilFloat x d - 2 / 10 ^ d ≤ ceilFloat (x * 2) d ∧
    ceilFloat (x * 2) d ≤ 2 * ceilFloat x d := by
  have h1 := ceilFloat_ge x d
  have h2 := ceilFloat_ge (x * 2) d
  have hp : (0 : K) < 10 ^ d := by positivity
  constructor
  · have : (2 : K) / 10 ^ d = 2 * (1 / 10 ^ d) := by ring
    rw [this]
    linarith [h1.2, h2.1]
  · unfold ceilFloat
    rw [← mul_div_assoc]
    apply div_le_div_of_nonneg_right _ hp.le
    have : (⌈x * 2 * 10 ^ d⌉ : ℤ) ≤ 2 * ⌈x * 10 ^ d⌉ := by
      rw [Int.ceil_le]
      push_cast
      have := Int.le_ceil (x * 10 ^ d)
      linarith
    exact_mod_cast this

/-- C61 (IEC 62368), for wound components: within the rounding, which goes up. -/
theorem creepage623_doubles {T : T62368 K} {c d : Cls} (hp : q.wiring ≠ some .printed) (hc : c.strong = false)
    (hd : d.strong = true) {v w : K} (hv : creepage623 T { q with cls := c } false = .ok v)
    (hw : creepage623 T { q with cls := d } false = .ok w) : 2 * v - 2 / 10 ^ 4 ≤ w ∧ w ≤ 2 * v := by
  unfold creepage623 at hv hw
  simp only [if_neg hp, Bool.false_eq_true, if_false] at hv hw
  have h17 : ∀ a b, creepage17 T { q with cls := c } = .ok a → creepage17 T { q with cls := d } = .ok b →
      2 * a - 2 / 10 ^ 4 ≤ b ∧ b ≤ 2 * a := by
    intro a b ha hb
    unfold creepage17 at ha hb
    rw [Out.bind_eq_ok] at ha hb
    obtain ⟨e, he, ha⟩ := ha
    obtain ⟨e', he', hb⟩ := hb
    rw [he] at he'
    cases he'
    cases ha
    cases hb
    simp only [doubled, hc, hd, if_true, Bool.false_eq_true, if_false]
    exact ceil_doubles e 4
  have h18 : ∀ a b, creepage18 T { q with cls := c } = .ok a → creepage18 T { q with cls := d } = .ok b →
      2 * a - 2 / 10 ^ 4 ≤ b ∧ b ≤ 2 * a := by
    intro a b ha hb
    unfold creepage18 at ha hb
    rw [Out.bind_eq_ok] at ha hb
    obtain ⟨e, he, ha⟩ := ha
    obtain ⟨e', he', hb⟩ := hb
    rw [he] at he'
    cases he'
    cases ha
    cases hb
    simp only [doubled, hc, hd, if_true, Bool.false_eq_true, if_false]
    have := ceil_doubles (e * pdFactor q.pd) 5
    have h54 : (2 : K) / 10 ^ 5 ≤ 2 / 10 ^ 4 := by norm_num
    exact ⟨le_trans (by linarith) this.1, this.2⟩
  unfold creepageRaw623 at hv hw
  by_cases hf : q.freq ≤ lineFrequency
  · simp only [if_pos hf] at hv hw
    exact h17 _ _ hv hw
  · simp only [if_neg hf] at hv hw
    rw [Out.max2_eq_ok] at hv hw
    obtain ⟨a, b, ha, hb, rfl⟩ := hv
    obtain ⟨a', b', ha', hb', rfl⟩ := hw
    have h1 := h17 _ _ ha ha'
    have h2 := h18 _ _ hb hb'
    constructor
    · rcases le_total a b with h | h
      · rw [max_eq_right h]; exact le_trans h2.1 (le_max_right _ _)
      · rw [max_eq_left h]; exact le_trans h1.1 (le_max_left _ _)
    · have ha2 : 2 * a ≤ 2 * max a b := by linarith [le_max_left a b]
      have hb2 : 2 * b ≤ 2 * max a b := by linarith [le_max_right a b]
      exact max_le (le_trans h1.2 ha2) (le_trans h2.2 hb2)

example : creepage664 steps Shipped.t664 sample false = .ok (1 / 1000) ∧
    creepage664 steps Shipped.t664 { sample with cls := .double } false = .ok (2 / 1000) := by
  constructor <;> decide +kernel

/-! ## C62: the altitude correction -/

/-- C62 (IEC 60664, wound components): above 2000 m the clearance is the one up to 2000 m times the factor of
table A.2, interpolated. -/
theorem clearance664_altitude {T : T60664 K} (hp : q.wiring ≠ some .printed) {a b : K} (ha : a ≤ 2000) (hb : 2000 < b)
    {v w : K} (hv : clearance664 P T { q with altitude := a } = .ok v)
    (hw : clearance664 P T { q with altitude := b } = .ok w) : ∃ f, interp T.a2 b = .ok f ∧ w = v * f := by
  unfold clearance664 at hv hw
  rw [Out.bind_eq_ok] at hv hw
  obtain ⟨i, hi, hv⟩ := hv
  obtain ⟨j, hj, hw⟩ := hw
  simp only at hi hj
  rw [hi] at hj
  cases hj
  rw [Out.bind_eq_ok] at hv hw
  obtain ⟨c, hc, hv⟩ := hv
  obtain ⟨d, hd, hw⟩ := hw
  have e : (transientClearance T { q with altitude := a } i).max2
      (steadyClearance P T { q with altitude := a } (steady664 { q with altitude := a })) =
      (transientClearance T { q with altitude := b } i).max2
      (steadyClearance P T { q with altitude := b } (steady664 { q with altitude := b })) := by
    unfold transientClearance steadyClearance
    simp only [if_neg hp]
    rfl
  rw [e, hd] at hc
  cases hc
  unfold altitude664 at hv hw
  have ha' : ¬ (a > altitudeLimit) := not_lt.mpr ha
  have hb' : b > altitudeLimit := hb
  rw [if_neg ha'] at hv
  rw [if_pos hb', Out.bind_eq_ok] at hw
  obtain ⟨f, hf, hw⟩ := hw
  cases hv
  cases hw
  exact ⟨f, Out.ofVal_eq_ok.mp hf, rfl⟩

theorem ceil5_of_ceil4 (x : K) : ceilFloat (ceilFloat x 4) 5 = ceilFloat x 4 := by
  have e : ceilFloat x 4 = ((10 * ⌈x * 10 ^ 4⌉ : ℤ) : K) / 10 ^ 5 := by
    unfold ceilFloat
    push_cast
    field_simp
  rw [e]
  exact ceilFloat_int _ 5

theorem ceil5_of_ceilClearance (x : K) : ceilFloat (ceilClearance x) 5 = ceilClearance x := by
  unfold ceilClearance
  split
  · exact ceilFloat_idem x 5
  · exact ceil5_of_ceil4 x

/-- C62 (IEC 62368, wound components): the clearance is the one up to 2000 m times the factor of table 16, not
below one, rounded up to five decimals. -/
theorem clearance623_altitude {T : T62368 K} (hT : Rows T.t16) (h1 : ∀ r ∈ T.t16.head?, r = (2000, 1))
    (hp : q.wiring ≠ some .printed) {a b : K} (ha : a ≤ 2000) {v w : K}
    (hv : clearance623 T { q with altitude := a } = .ok v)
    (hw : clearance623 T { q with altitude := b } = .ok w) :
    ∃ f, interp T.t16 b = .ok f ∧ w = ceilFloat (ceilFloat (max 1 f) 5 * v) 5 := by
  obtain ⟨c1, m, c2, f, hc1, hm, hc2, hf, rfl⟩ := clearance623_eq_ok (i := { q with altitude := a }) hp hv
  obtain ⟨d1, n, d2, g, hd1, hn, hd2, hg, rfl⟩ := clearance623_eq_ok (i := { q with altitude := b }) hp hw
  simp only at hc1 hm hc2 hf hd1 hn hd2 hg
  rw [hm] at hn
  cases hn
  rw [hc2] at hd2
  cases hd2
  rw [hc1] at hd1
  cases hd1
  have hone : ceilFloat (1 : K) 5 = 1 := by
    have := ceilFloat_int (K := K) 100000 5
    norm_num at this
    exact this
  have hf1 : f = 1 := by
    unfold altitudeFactor623 at hf
    rw [Out.bind_eq_ok] at hf
    obtain ⟨y, hy, hf⟩ := hf
    rw [Out.ofVal_eq_ok] at hy
    cases hf
    have hy1 : y = 1 := by
      obtain ⟨r, s, l, e⟩ := two_rows hT.2
      rw [e] at hy h1 hT
      have hr : r = (2000, 1) := h1 r (by simp)
      have hat := interp_at_row hT.1 hT.2 (r := r) (by simp)
      rw [hr] at hat hy hT
      simp only at hat
      have hle := interp_mono hT.1 hT.2 ha hy hat
      have hge := interp_ge_first hT.1 hy
      exact le_antisymm hle hge
    rw [hy1, max_self]
    exact hone
  have hm5 : ceilFloat (max c1 c2) 5 = max c1 c2 := by
    have h5 : ∀ o : Out K, ∀ c : K, (o.bind fun x => .ok (ceilClearance x)) = .ok c → ceilFloat c 5 = c := by
      intro o c h
      rw [Out.bind_eq_ok] at h
      obtain ⟨x, -, h⟩ := h
      cases h
      exact ceil5_of_ceilClearance x
    have e2 : ceilFloat c2 5 = c2 := h5 _ _ hc2
    have e1 : ceilFloat c1 5 = c1 := by
      split at hc1
      · exact h5 _ _ hc1
      · unfold clearance11 at hc1
        rw [Out.bind_eq_ok] at hc1
        obtain ⟨x, -, h⟩ := hc1
        cases h
        exact ceil5_of_ceilClearance _
    rcases le_total c1 c2 with h | h
    · rw [max_eq_right h]; exact e2
    · rw [max_eq_left h]; exact e1
  unfold altitudeFactor623 at hg
  rw [Out.bind_eq_ok] at hg
  obtain ⟨y, hy, hg⟩ := hg
  cases hg
  refine ⟨y, Out.ofVal_eq_ok.mp hy, ?_⟩
  rw [hf1, one_mul, hm5]

example : clearance664 steps Shipped.t664 { sample with vrms := 300, altitude := 2000 } = .ok (5 / 10000) ∧
    clearance664 steps Shipped.t664 { sample with vrms := 300, altitude := 5000 } = .ok (74 / 100000) ∧
    clearance623 Shipped.t623 { sample with altitude := 2000 } = .ok (127 / 100000) ∧
    clearance623 Shipped.t623 { sample with altitude := 5000 } = .ok (188 / 100000) ∧
    (∀ r ∈ Shipped.t623.t16.head?, r = (2000, 1)) := by
  refine ⟨?_, ?_, ?_, ?_, ?_⟩ <;> decide +kernel

/-! ## C63: a clearance covers every table it is made of -/

/-- C63 (IEC 60664, wound components): with basic insulation, at least the clearance of table F.2 for the impulse
voltage of table F.1, and up to 30 kHz at least that of table F.8 for the peak working voltage. -/
theorem clearance664_covers {T : T60664 K} (hT : Sound664 T) (hp : q.wiring ≠ some .printed)
    (hc : q.cls.strong = false) {d : K} (h : clearance664 P T q = .ok d) :
    (∀ imp v, FirstRow (q.vrms ≤ ·) (T.f1 q.ovc) imp → FirstRow (imp ≤ ·) (T.f2 q.pd) v → v ≤ d) ∧
    (q.freq ≤ 30000 → ∀ v, FirstRow (q.vpeak ≤ ·) T.f8 v → v ≤ d) := by
  unfold clearance664 at h
  rw [Out.bind_eq_ok] at h
  obtain ⟨imp, hi, h⟩ := h
  rw [Out.bind_eq_ok] at h
  obtain ⟨m, hm, h⟩ := h
  have hm' := hm
  rw [Out.max2_eq_ok] at hm
  obtain ⟨a, b, ha, hb, rfl⟩ := hm
  unfold transientClearance at ha
  unfold steadyClearance steadyWound steady664 at hb
  rw [if_neg hp, Out.ofOption_eq_ok] at ha
  rw [if_neg hp, Out.bind_eq_ok] at hb
  simp only [hc, Bool.false_eq_true, if_false] at hb
  obtain ⟨c, hc', hb⟩ := hb
  rw [Out.ofOption_eq_ok] at hc'
  have ha0 : 0 ≤ a := lookupLe_ge (hT.f2 _).2 ha
  have hd : max a b ≤ d := altitude_ge hT (le_trans ha0 (le_max_left _ _)) h
  unfold impulse664 at hi
  simp only [hc, Bool.false_eq_true, if_false] at hi
  rw [Out.ofOption_eq_ok] at hi
  constructor
  · intro imp' v h1 h2
    rw [((lookupLe_spec _ _).1 imp').mpr h1] at hi
    cases hi
    rw [((lookupLe_spec _ _).1 v).mpr h2] at ha
    cases ha
    exact le_trans (le_max_left _ _) hd
  · intro hf v hv
    have hf' : ¬ (q.freq > lineFrequency) := not_lt.mpr hf
    rw [if_neg hf'] at hb
    cases hb
    rw [((lookupLe_spec _ _).1 v).mpr hv] at hc'
    cases hc'
    exact le_trans (le_max_right _ _) hd

/-- The value of the step after `r`, or 1.6 times its own without one. -/
def nextStep (r : K × K) : Table K → K
  | s :: _ => s.2
  | [] => r.2 * (16 / 10)

/-- C63 (IEC 60664): the impulse voltage of reinforced and double insulation is that of the next step of table
F.1, or 1.6 times the last one. -/
theorem impulse_next_step {T : T60664 K} {o : Ovc} {c : Cls} (hc : c.strong = true) (x : K)
    {before after : Table K} {r : K × K} (h : T.f1 o = before ++ r :: after) (hb : ∀ s ∈ before, s.1 < x)
    (hr : x ≤ r.1) : impulse664 T o x c = .ok (nextStep r after) := by
  unfold impulse664
  simp only [hc, if_true]
  rw [Out.ofOption_eq_ok, h]
  clear h
  induction before with
  | nil =>
    cases after with
    | nil => simp [nextRows, nextStep, lookupLe, hr]
    | cons s l => simp [nextRows, nextStep, lookupLe, hr]
  | cons a l ih =>
    have ha : ¬ x ≤ a.1 := not_le.mpr (hb a (by simp))
    have := ih (fun s hs => hb s (by simp [hs]))
    cases l with
    | nil =>
      simp only [List.cons_append, List.nil_append, nextRows, lookupLe, if_neg ha] at this ⊢
      exact this
    | cons b l =>
      simp only [List.cons_append, nextRows, lookupLe, if_neg ha] at this ⊢
      exact this

/-- C63 (IEC 62368, wound components): at least the clearance of table 14 for the larger of the peak working
voltage and the mains transient of table 12, and up to 30 kHz at least that of table 10 for the peak working
voltage. -/
theorem clearance623_covers {T : T62368 K} (hT : Sound623 T) (hp : q.wiring ≠ some .printed) {d : K}
    (h : clearance623 T q = .ok d) :
    (∀ m v, FirstRow (q.main ≤ ·) (T.t12 q.ovc) m → interp (T.t14 q.cls.strong q.pd) (max q.vpeak m) = .ok v → v ≤ d) ∧
    (q.freq ≤ 30000 → ∀ v, interp (T.t10 q.cls.strong q.pd) q.vpeak = .ok v → v ≤ d) ∧
    (q.freq ≤ 30000 → ∀ v, interp (T.t10 q.cls.strong q.pd) (q.main + 1200) = .ok v → v ≤ d) := by
  obtain ⟨c1, m, c2, f, hc1, hm, hc2, hf, rfl⟩ := clearance623_eq_ok hp h
  have hf1 : 1 ≤ f := by
    unfold altitudeFactor623 at hf
    rw [Out.bind_eq_ok] at hf
    obtain ⟨y, -, hf⟩ := hf
    cases hf
    exact le_trans (le_max_left _ _) (ceilFloat_ge _ 5).1
  have hc20 : 0 ≤ c2 := by
    unfold clearanceTable at hc2
    rw [Out.bind_eq_ok] at hc2
    obtain ⟨y, hy, hc2⟩ := hc2
    cases hc2
    exact le_trans (interp_ge_of_rows (hT.t14 _ _).1 (hT.t14 _ _).2 (Out.ofVal_eq_ok.mp hy)) (ceilClearance_ge _)
  have hd : max c1 c2 ≤ ceilFloat (f * max c1 c2) 5 := by
    have h0 : 0 ≤ max c1 c2 := le_trans hc20 (le_max_right _ _)
    refine le_trans ?_ (ceilFloat_ge _ 5).1
    nlinarith
  have hten : q.freq ≤ 30000 → ∀ x v, x ≤ max q.vpeak (max q.vpeak (temporary623 q.main)) →
      interp (T.t10 q.cls.strong q.pd) x = .ok v → v ≤ c1 := by
    intro hq x v hx hv
    have hq' : q.freq ≤ lineFrequency := hq
    rw [if_pos hq'] at hc1
    unfold clearanceTable at hc1
    rw [Out.bind_eq_ok] at hc1
    obtain ⟨y, hy, hc1⟩ := hc1
    cases hc1
    exact le_trans (interp_mono (hT.t10 _ _).1.1 (hT.t10 _ _).1.2 hx hv (Out.ofVal_eq_ok.mp hy)) (ceilClearance_ge _)
  refine ⟨fun m' v hm' hv => ?_, fun hq v hv => ?_, fun hq v hv => ?_⟩
  · rw [((lookupLe_spec _ _).1 m').mpr hm'] at hm
    cases hm
    unfold clearanceTable at hc2
    rw [hv] at hc2
    simp only [Out.ofVal, Out.bind, Out.ok.injEq] at hc2
    exact le_trans (ceilClearance_ge v) (le_trans hc2.le (le_trans (le_max_right _ _) hd))
  · exact le_trans (hten hq _ v (le_max_left _ _) hv) (le_trans (le_max_left _ _) hd)
  · refine le_trans (hten hq _ v ?_ hv) (le_trans (le_max_left _ _) hd)
    refine le_trans ?_ (le_trans (le_max_right _ _) (le_max_right _ _))
    unfold temporary623
    split
    · exact le_max_right _ _
    · exact le_max_right _ _

/-- C63 (IEC 61558), up to 2000 m: at least the clearance of table 20 for the rms working voltage, and above
30 kHz at least those of tables 103 and 104 for the peak working voltage where they have one. -/
theorem clearance615_covers {T6 : T60664 K} {T : T61558 K} (ha : q.altitude ≤ 2000) (hc : q.cls ≠ .functional) {d : K}
    (h : clearance615 P T6 T q = .ok d) :
    (25 ≤ q.vrms → pd615 q ≠ .pd1 → ∀ v, FirstRow (q.vrms ≤ ·) (T.t20 q.ovc q.cls (pd615 q)) v → v ≤ d) ∧
    (30000 < q.freq → 25 ≤ q.vpeak →
      (∀ v, FirstRow (q.vpeak ≤ ·) (T.t103 q.cls.strong) v → v ≤ d) ∧
      ∀ v, FirstRow (q.vpeak ≤ ·) (T.t104 q.cls.strong) v → v ≤ d) := by
  unfold clearance615 guardSupply at h
  rw [if_neg hc] at h
  split at h
  · simp at h
  rw [Out.bind_eq_ok] at h
  obtain ⟨c, hc20, h⟩ := h
  have ha' : ¬ (q.altitude > altitudeLimit) := not_lt.mpr ha
  rw [if_neg ha'] at h
  have hcd : c ≤ d := by
    split at h
    · rw [Out.bind_eq_ok] at h
      obtain ⟨e, -, h⟩ := h
      cases h
      exact le_trans (le_max_left _ _) (ceilFloat_ge _ 5).1
    · cases h
      exact (ceilFloat_ge _ 5).1
  constructor
  · intro hv hpd v hrow
    unfold clearance20 at hc20
    rw [if_neg (by simp [not_lt.mpr hv, hpd, hc]), Out.ofOption_eq_ok, ((lookupLe_spec _ _).1 v).mpr hrow] at hc20
    cases hc20
    exact hcd
  · intro hf hv
    have hf' : q.freq > lineFrequency := hf
    rw [if_pos hf', Out.bind_eq_ok] at h
    obtain ⟨e, he, h⟩ := h
    cases h
    have hed : e ≤ ceilFloat (max c e) 5 := le_trans (le_max_right _ _) (ceilFloat_ge _ 5).1
    unfold clearanceHigh615 at he
    rw [if_neg (by simp [not_lt.mpr hv, hc]), Out.bind_eq_ok] at he
    obtain ⟨x, hx, he⟩ := he
    rw [Out.ofOption_eq_ok] at hx
    constructor
    · intro v hrow
      rw [((lookupLe_spec _ _).1 v).mpr hrow] at hx
      cases hx
      refine le_trans ?_ hed
      split at he
      · cases he; exact le_max_left _ _
      · cases he; exact le_refl _
    · intro v hrow
      rw [((lookupLe_spec _ _).1 v).mpr hrow] at he
      cases he
      exact le_trans (le_max_right _ _) hed

/-- C63 (IEC 60335): at least the clearance of IEC 60664 whenever a winding exceeds the voltage of the first, the
altitude exceeds 2000 m or the frequency 30 kHz. -/
theorem clearance603_covers {T6 : T60664 K} {T : T60335 K} {d e : K} (h : clearance603 P T6 T q = .ok d)
    (he : clearance664 P T6 q = .ok e) (hu : q.vrms > q.vrms0 ∨ q.altitude > 2000 ∨ q.freq > 30000) : e ≤ d := by
  unfold clearance603 at h
  split at h
  · simp at h
  · rw [Out.bind_eq_ok] at h
    obtain ⟨i, -, h⟩ := h
    rw [Out.bind_eq_ok] at h
    obtain ⟨c, -, h⟩ := h
    have hu' : Uses664 q := hu
    rw [if_pos hu', he] at h
    cases h
    exact le_max_right _ _

/-- The hypotheses of C63 are met by inputs that answer. -/
example : clearance664 steps Shipped.t664 sample = .ok (5 / 10000) ∧
    clearance623 Shipped.t623 sample = .ok (127 / 100000) ∧
    clearance615 steps Shipped.t664 Shipped.t615 { sample with pd := .pd2, freq := 100000 } = .ok (5 / 10000) ∧
    clearance603 steps Shipped.t664 Shipped.t603 sample = .ok (5 / 10000) := by
  refine ⟨?_, ?_, ?_, ?_⟩ <;> decide +kernel

end Verif.Standards
