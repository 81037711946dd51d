import Verif.Reluctance.LengthProps

/-!
# The energy of gaps and cores, what a reluctance model remembers, and the clearance of drums with a ring
-/

set_option linter.unusedSimpArgs false
set_option linter.unusedVariables false

namespace Verif.Reluctance

/-! ## Specification -/

/-- The energy of a flux through a reluctance. -/
noncomputable def fluxEnergy (flux reluctance : ℝ) : ℝ := flux ^ 2 * reluctance / 2

/-- The area of a gap that has one. -/
noncomputable def areaOf (g : Gap) : ℝ := g.area.getD 0

/-- A gap that a model may be asked about: with a length, and with an area and a section that are positive. -/
def Sound (g : Gap) : Prop := 0 < g.length ∧ (∃ a, g.area = some a ∧ 0 < a) ∧ ∀ w d, g.dims = some (w, d) → 0 < w ∧ 0 < d

theorem sample_sound : Sound sample :=
  ⟨by norm_num [sample], ⟨_, rfl, by norm_num⟩, by
    intro w d h
    have h' : ((0.01 : ℝ), (0.01 : ℝ)) = (w, d) := Option.some.inj h
    obtain ⟨rfl, rfl⟩ := Prod.mk.inj h'
    norm_num⟩

/-! ## All the gaps of a core -/

/-- **C267.** What is said of the gaps of a core: an answer for each in order, a factor that is the highest of them and one, and,
for every model but that of Muehlethaler, the sum of the energies of the flux at the saturation used through each reluctance. -/
theorem gapping_sums (k : Kind) (hk : k ≠ .muehlethaler) (saturation : ℝ) (gaps : List Gap) (r : Gapping)
    (hs : ∀ g ∈ gaps, Sound g) (h : gapping k saturation gaps = .ok r) :
    List.Forall₂ (fun g a => gapReluctance k saturation g = .ok a) gaps r.gaps ∧
    (1 ≤ r.factor ∧ (∀ a ∈ r.gaps, a.factor ≤ r.factor) ∧ (r.factor = 1 ∨ ∃ a ∈ r.gaps, a.factor = r.factor)) ∧
    r.energy = ((gaps.zip r.gaps).map fun p => fluxEnergy (saturation * areaOf p.1) p.2.reluctance).sum := by
  unfold gapping at h
  split at h <;> simp at h
  rename_i l hl
  subst h
  have hf := mapM_ok hl
  refine ⟨hf, ⟨(foldl_factor l 1).1, (foldl_factor l 1).2, ?_⟩, ?_⟩
  · exact foldl_factor_mem l 1
  · simp only
    rw [foldl_energy (fun a => a.energy)]
    simp only [zero_add]
    clear hl
    induction hf with
    | nil => simp
    | cons hab _ ih =>
      rename_i g a gs as _
      simp only [List.map_cons, List.sum_cons, List.zip_cons_cons]
      rw [ih (fun g hg => hs g (by simp [hg]))]
      obtain ⟨hl, ⟨area, ha, hpos⟩, hd⟩ := hs g (by simp)
      have := (factor_and_energy_agree k hk saturation g area a ha hpos hl hd hab).2
      rw [this]
      simp [fluxEnergy, areaOf, ha]

example : ∃ r, gapping .classic 0.3 [sample, sample] = .ok r := ⟨_, rfl⟩

/-- **C267.** Asked for a core at an operating point, or with none, a model answers with the saturation of that core, whatever it
was asked before. -/
theorem point_uses_own_saturation (k : Kind) (qs : List Question) (c : CoreCase) (t : Option ℝ) :
    (ask k (after k qs) (.atPoint c t)).2 = gapping k (c.saturation (t.getD 25)) c.gaps := rfl

/-- **C267.** Asked for a core with a permeability, or for its gaps, a model answers with the saturation of the last core it was
asked about at an operating point, or with 0.4 tesla, and never with that of the core. -/
theorem permeability_uses_last_saturation (k : Kind) (c : CoreCase) (q : Question)
    (hq : q = .withPermeability c ∨ q = .gapsOf c) (qs rest : List Question) (o : CoreCase) (t : Option ℝ)
    (hrest : ∀ x ∈ rest, ∀ o' t', x ≠ .atPoint o' t') :
    (ask k (after k (qs ++ .atPoint o t :: rest)) q).2 = gapping k (o.saturation (t.getD 25)) c.gaps ∧
    (ask k (after k rest) q).2 = gapping k 0.4 c.gaps := by
  have key : ∀ s, rest.foldl (fun s q => (ask k s q).1) s = s := by
    intro s
    induction rest generalizing s with
    | nil => rfl
    | cons x xs ih =>
      rw [List.foldl_cons]
      have hx : (ask k s x).1 = s := by
        cases x with
        | atPoint o' t' => exact absurd rfl (hrest _ (by simp) o' t')
        | withPermeability _ => rfl
        | gapsOf _ => rfl
      rw [hx]
      exact ih (fun x hx => hrest x (by simp [hx])) s
  have h1 : after k (qs ++ .atPoint o t :: rest) = o.saturation (t.getD 25) := by
    unfold after
    rw [List.foldl_append, List.foldl_cons, key]
    rfl
  have h2 : after k rest = 0.4 := by unfold after; rw [key]; rfl
  rcases hq with rfl | rfl
  · exact ⟨by rw [h1]; rfl, by rw [h2]; rfl⟩
  · exact ⟨by rw [h1]; rfl, by rw [h2]; rfl⟩

/-- A core of one gap, with a saturation. -/
noncomputable def oneGap (saturation : ℝ) : CoreCase := ⟨[sample], fun _ => saturation⟩

theorem classic_energy (saturation : ℝ) : ∃ r, gapping .classic saturation [sample] = .ok r ∧
    r.energy = 0.5 / mu0 * 0.0005 * 0.0000785 * saturation ^ 2 := by
  refine ⟨_, rfl, ?_⟩
  simp only [List.foldl_cons, List.foldl_nil, answer, storable]
  have : sample.length = 0.0005 := rfl
  rw [this]
  ring

/-- **C267.** The energy answered for a core with a permeability is another after the model was asked about another core, and it
is not that of its own saturation either before or after. -/
theorem energy_depends_on_history : ∃ (c o : CoreCase) (before later : Gapping),
    (ask .classic (after .classic []) (.withPermeability c)).2 = .ok before ∧
    (ask .classic (after .classic [.atPoint o none]) (.withPermeability c)).2 = .ok later ∧
    before.energy ≠ later.energy ∧
    ∀ own, (ask .classic (after .classic []) (.atPoint c none)).2 = .ok own → own.energy ≠ before.energy ∧ own.energy ≠ later.energy := by
  obtain ⟨r1, h1, e1⟩ := classic_energy 0.4
  obtain ⟨r2, h2, e2⟩ := classic_energy 1
  obtain ⟨r3, h3, e3⟩ := classic_energy 0.3
  have hm := mu0_pos
  have hc : 0 < 0.5 / mu0 * 0.0005 * 0.0000785 := by positivity
  refine ⟨oneGap 0.3, oneGap 1, r1, r2, h1, h2, ?_, ?_⟩
  · rw [e1, e2]; intro h; nlinarith
  · intro own ho
    have : gapping .classic 0.3 [sample] = .ok own := ho
    rw [h3] at this
    simp only [Res.ok.injEq] at this
    subst this
    rw [e1, e2, e3]
    constructor <;> intro h <;> nlinarith

/-! ## Energy -/

/-- **C269.** The energy of a core without gaps and the permeability by energy undo each other. -/
theorem energy_permeability_inverse (saturation volume x : ℝ) (hs : 0 < saturation) (hv : 0 < volume) (hx : 0 < x) :
    permeabilityByEnergy saturation volume (ungappedEnergy saturation x volume) = x ∧
      ungappedEnergy saturation (permeabilityByEnergy saturation volume x) volume = x := by
  have hm := mu0_pos.ne'
  unfold permeabilityByEnergy ungappedEnergy
  constructor <;> field_simp

/-- **C269.** The energy of a core without gaps is that of the flux at saturation through its reluctance, for an effective volume
that is the effective area by the effective length. -/
theorem ungapped_energy_is_of_flux (saturation permeability length area : ℝ) (ha : 0 < area) (hp : 0 < permeability) :
    ungappedEnergy saturation permeability (area * length) = fluxEnergy (saturation * area) (length / (mu0 * permeability * area)) := by
  have hm := mu0_pos.ne'
  unfold ungappedEnergy fluxEnergy
  field_simp
  ring

/-- The energy of a gap is what its reluctance answers at the same saturation. -/
theorem gapEnergy_run {k : Kind} {g : Gap} {area saturation : ℝ} {a : Answer} (ha : g.area = some area)
    (h : gapReluctance k fresh g = .ok a) :
    gapEnergy k g saturation none = .ok (0.5 / mu0 * g.length * area / a.factor * saturation ^ 2) := by
  simp only [gapEnergy, ha, h]

/-- **C269.** The length by energy of a gap, for the energy that the gap stores, is the length of the gap. -/
theorem length_energy_inverse (k : Kind) (g : Gap) (saturation : ℝ) (e : ℝ) (a : Answer) (area : ℝ) (ha : g.area = some area)
    (hpos : 0 < area) (hs : 0 < saturation) (hf : gapReluctance k fresh g = .ok a) (hf0 : a.factor ≠ 0)
    (h : gapEnergy k g saturation none = .ok e) : lengthByEnergy k g saturation e = .ok g.length := by
  rw [gapEnergy_run ha hf] at h
  simp only [Res.ok.injEq] at h
  subst h
  simp only [lengthByEnergy, ha, hf, Res.ok.injEq]
  have hm := mu0_pos.ne'
  field_simp
  norm_num

example (e : ℝ) (h : gapEnergy .classic sample 0.3 none = .ok e) : lengthByEnergy .classic sample 0.3 e = .ok 0.0005 :=
  length_energy_inverse .classic sample 0.3 e _ _ rfl (by norm_num) (by norm_num) rfl (by simp [answer]) h

/-- **C269.** Without fringing, a gap of the length by energy stores the energy asked for. -/
theorem length_by_energy_stores_partial (g : Gap) (saturation e l : ℝ) (area : ℝ) (ha : g.area = some area)
    (hpos : 0 < area) (hs : 0 < saturation) (h : lengthByEnergy .classic g saturation e = .ok l) :
    gapEnergy .classic { g with length := l } saturation none = .ok e := by
  simp only [lengthByEnergy, ha, gapReluctance, classic, answer, Res.ok.injEq] at h
  subst h
  simp only [gapEnergy, ha, gapReluctance, classic, answer, Res.ok.injEq]
  have hm := mu0_pos.ne'
  field_simp
  norm_num

/-- **C269.** With fringing, a gap of the length by energy may store another energy than the one asked for: the fringing is that of
the length it had. -/
theorem length_by_energy_stores_other : ∃ (g : Gap) (e l e' : ℝ), Sound g ∧ 0 < e ∧
    lengthByEnergy .effectiveArea g 0.3 e = .ok l ∧ gapEnergy .effectiveArea { g with length := l } 0.3 none = .ok e' ∧ e' < e := by
  have f1 : areaFactor 0.0005 false 0.001 0.001 = 2.25 := by unfold areaFactor; norm_num
  have hm := mu0_pos
  refine ⟨slim 0.0005, 0.001 * 0.000001 * 0.3 ^ 2 / (2 * mu0 * 2.25), 0.001,
    0.5 / mu0 * 0.001 * 0.000001 / areaFactor 0.001 false 0.001 0.001 * 0.3 ^ 2, ?_, by positivity, ?_, ?_, ?_⟩
  · refine ⟨by norm_num [slim], ⟨_, rfl, by norm_num⟩, ?_⟩
    intro w d h
    have h' : ((0.001 : ℝ), (0.001 : ℝ)) = (w, d) := Option.some.inj h
    obtain ⟨rfl, rfl⟩ := Prod.mk.inj h'
    norm_num
  · change Res.ok (2 * (0.001 * 0.000001 * 0.3 ^ 2 / (2 * mu0 * 2.25)) * mu0 * areaFactor 0.0005 false 0.001 0.001 / (0.000001 * 0.3 ^ 2)) = _
    rw [f1]
    congr 1
    field_simp
  · exact rfl
  · have f2 : areaFactor 0.001 false 0.001 0.001 = 4 := by unfold areaFactor; norm_num
    rw [f2]
    rw [show (0.5 : ℝ) / mu0 * 0.001 * 0.000001 / 4 * 0.3 ^ 2 = (0.5 * 0.001 * 0.000001 / 4 * 0.3 ^ 2) / mu0 by ring]
    rw [show (0.001 : ℝ) * 0.000001 * 0.3 ^ 2 / (2 * mu0 * 2.25) = (0.001 * 0.000001 * 0.3 ^ 2 / (2 * 2.25)) / mu0 by field_simp]
    apply div_lt_div_of_pos_right _ hm
    norm_num

/-- **C269.** A core whose gap has the length by saturation, at the fringing that was used, does not go over the flux density
asked for: for any reluctance of the rest of the core, and turns that give the inductance, the flux density at the peak current is
at most the target. -/
theorem length_by_saturation_holds (k : Kind) (g : Gap) (effectiveArea target inductance peak l : ℝ) (a : Answer) (area : ℝ)
    (ha : g.area = some area) (hpos : 0 < area) (he : 0 < effectiveArea) (ht : 0 < target) (hL : 0 < inductance) (hI : 0 < peak)
    (hf : gapReluctance k fresh g = .ok a) (hf0 : 0 < a.factor)
    (h : lengthBySaturation k g effectiveArea target inductance peak = .ok l)
    (rest turns : ℝ) (hrest : 0 ≤ rest) (hN : 0 < turns)
    (hturns : turns ^ 2 = inductance * (rest + l / (mu0 * area * a.factor))) :
    turns * peak / ((rest + l / (mu0 * area * a.factor)) * effectiveArea) ≤ target := by
  have hm := mu0_pos
  simp only [lengthBySaturation, ha, hf, Res.ok.injEq] at h
  subst h
  have hR : inductance * peak ^ 2 * mu0 * area * a.factor / (target ^ 2 * effectiveArea ^ 2) / (mu0 * area * a.factor) =
      inductance * peak ^ 2 / (target ^ 2 * effectiveArea ^ 2) := by field_simp
  rw [hR] at hturns ⊢
  have hgap : 0 < inductance * peak ^ 2 / (target ^ 2 * effectiveArea ^ 2) := by positivity
  have hle : inductance * peak ^ 2 / (target ^ 2 * effectiveArea ^ 2) ≤ rest + inductance * peak ^ 2 / (target ^ 2 * effectiveArea ^ 2) := by
    linarith
  generalize rest + inductance * peak ^ 2 / (target ^ 2 * effectiveArea ^ 2) = R at *
  have hRpos : 0 < R := lt_of_lt_of_le hgap hle
  rw [div_le_iff₀ (by positivity)] at hle ⊢
  apply le_of_sq_le_sq _ (by positivity)
  calc (turns * peak) ^ 2 = turns ^ 2 * peak ^ 2 := by ring
    _ = inductance * peak ^ 2 * R := by rw [hturns]; ring
    _ ≤ R * (target ^ 2 * effectiveArea ^ 2) * R := mul_le_mul_of_nonneg_right hle hRpos.le
    _ = (target * (R * effectiveArea)) ^ 2 := by ring
where
  le_of_sq_le_sq {x y : ℝ} (h : x ^ 2 ≤ y ^ 2) (hy : 0 ≤ y) : x ≤ y := by nlinarith

theorem addGaps_ok {k : Kind} {saturation total : ℝ} {gaps : List Gap} {e : ℝ} (h : addGaps k saturation total gaps = .ok e) :
    ∃ es, List.Forall₂ (fun g x => gapEnergy k g saturation none = .ok x) gaps es ∧ e = total + es.sum := by
  induction gaps generalizing total with
  | nil => simp [addGaps] at h; exact ⟨[], .nil, by simp [h]⟩
  | cons g rest ih =>
    simp only [addGaps] at h
    split at h
    · rename_i x hx
      obtain ⟨es, h1, h2⟩ := ih h
      exact ⟨x :: es, .cons hx h1, by rw [h2, List.sum_cons]; ring⟩
    all_goals simp at h

/-- **C269.** The energy of a core is that of the core without gaps and the sum of that of its gaps, at the saturation with the
proportion that may be used. -/
theorem core_energy_sums (k : Kind) (material permeability volume : ℝ) (gaps : List Gap) (e : ℝ)
    (h : coreEnergy k material permeability volume gaps true = .ok e) :
    ∃ es, List.Forall₂ (fun g x => gapEnergy k g (0.7 * material) none = .ok x) gaps es ∧
      e = ungappedEnergy (0.7 * material) permeability volume + es.sum := addGaps_ok h

/-- **C269.** Asked for the whole saturation, the energy of a core without gaps is still that of the proportion, and not that of
the whole saturation. -/
theorem whole_saturation_not_used (k : Kind) (material permeability volume : ℝ) (hm : 0 < material) (hp : 0 < permeability)
    (hv : 0 < volume) : ∃ e, coreEnergy k material permeability volume [] false = .ok e ∧
      coreEnergy k material permeability volume [] true = .ok e ∧ e < ungappedEnergy material permeability volume := by
  refine ⟨_, rfl, rfl, ?_⟩
  unfold ungappedEnergy saturationFor proportionOfSaturation
  have h0 := mu0_pos
  have hc : 0 < 0.5 / (mu0 * permeability) * volume := by positivity
  rw [if_pos rfl]
  apply mul_lt_mul_of_pos_left _ hc
  nlinarith

/-! ## The energy required -/

/-- The energy of an inductance at a current. -/
noncomputable def inductiveEnergy (inductance current : ℝ) : ℝ := inductance * current ^ 2 / 2

/-- **C270.** The energy required is, for each of the minimum, nominal and maximum inductance, that of one current: the highest
peak of all the operating points, or none. -/
theorem required_energy_of_highest_peak (inductance : Dimension) (points : List (Option MagnetizingCurrent)) (r : Dimension)
    (h : requiredEnergy inductance points = .ok r) : ∃ peak, 0 ≤ peak ∧
      (∀ m ∈ points, ∃ p, peakOf m = .ok p ∧ p ≤ peak) ∧ (peak = 0 ∨ ∃ m ∈ points, peakOf m = .ok peak) ∧
      r.minimum = inductance.minimum.map (inductiveEnergy · peak) ∧ r.nominal = inductance.nominal.map (inductiveEnergy · peak) ∧
      r.maximum = inductance.maximum.map (inductiveEnergy · peak) := by
  unfold requiredEnergy at h
  split at h <;> simp at h
  rename_i peak hp
  subst h
  obtain ⟨h1, h2, h3⟩ := highest_ok hp
  exact ⟨peak, h1, h2, h3, rfl, rfl, rfl⟩

/-- **C270.** The energies required are in the order of the inductances, and an operating point more never lowers them. -/
theorem required_energy_ordered (inductance : Dimension) (points : List (Option MagnetizingCurrent)) (r : Dimension)
    (h : requiredEnergy inductance points = .ok r) :
    (∀ lo hi a b, inductance.minimum = some lo → inductance.maximum = some hi → lo ≤ hi → r.minimum = some a → r.maximum = some b → a ≤ b) ∧
    (∀ lo n a b, inductance.minimum = some lo → inductance.nominal = some n → lo ≤ n → r.minimum = some a → r.nominal = some b → a ≤ b) ∧
    (∀ n hi a b, inductance.nominal = some n → inductance.maximum = some hi → n ≤ hi → r.nominal = some a → r.maximum = some b → a ≤ b) ∧
    (∀ m r', requiredEnergy inductance (points ++ [m]) = .ok r' → ∀ l a b, inductance.minimum = some l → 0 ≤ l →
      r.minimum = some a → r'.minimum = some b → a ≤ b) := by
  obtain ⟨peak, hp, hall, hmem, e1, e2, e3⟩ := required_energy_of_highest_peak inductance points r h
  have key : ∀ x y, x ≤ y → inductiveEnergy x peak ≤ inductiveEnergy y peak := by
    intro x y hxy
    unfold inductiveEnergy
    have : 0 ≤ peak ^ 2 := by positivity
    nlinarith
  refine ⟨?_, ?_, ?_, ?_⟩
  · intro lo hi a b h1 h2 hle ha hb
    rw [e1, h1] at ha; rw [e3, h2] at hb
    simp at ha hb; subst ha; subst hb; exact key _ _ hle
  · intro lo hi a b h1 h2 hle ha hb
    rw [e1, h1] at ha; rw [e2, h2] at hb
    simp at ha hb; subst ha; subst hb; exact key _ _ hle
  · intro lo hi a b h1 h2 hle ha hb
    rw [e2, h1] at ha; rw [e3, h2] at hb
    simp at ha hb; subst ha; subst hb; exact key _ _ hle
  · intro m r' hr' l a b hl hl0 ha hb
    obtain ⟨peak', hp', hall', -, e1', -, -⟩ := required_energy_of_highest_peak inductance (points ++ [m]) r' hr'
    have hle : peak ≤ peak' := by
      rcases hmem with rfl | ⟨m', hm', hpk⟩
      · exact hp'
      · obtain ⟨p, hp1, hp2⟩ := hall' m' (by simp [hm'])
        rw [hpk] at hp1
        simp only [Res.ok.injEq] at hp1
        rw [hp1]; exact hp2
    rw [e1, hl] at ha; rw [e1', hl] at hb
    simp at ha hb; subst ha; subst hb
    unfold inductiveEnergy
    have : peak ^ 2 ≤ peak' ^ 2 := by nlinarith
    nlinarith

/-- **C270.** The peak taken from a waveform is not below the magnitude of any of its values. -/
theorem peak_of_waveform (m : MagnetizingCurrent) (p : ℝ) (hnone : m.peak = none) (h : peakOf (some m) = .ok p) :
    ∀ x ∈ m.waveform, |x| ≤ p := by
  simp only [peakOf, hnone] at h
  split at h
  · simp at h
  · rename_i x l hw
    simp only [Res.ok.injEq] at h
    subst h
    rw [hw]
    intro y hy
    have hg : y ≤ greatest x l := by
      rcases List.mem_cons.mp hy with rfl | hy
      · exact (greatest_ge y l).1
      · exact (greatest_ge x l).2 y hy
    have hl : least x l ≤ y := by
      rcases List.mem_cons.mp hy with rfl | hy
      · exact (least_le y l).1
      · exact (least_le x l).2 y hy
    rw [abs_le]
    constructor
    · have := le_max_right (greatest x l) (-(least x l)); linarith
    · exact le_trans hg (le_max_left _ _)

/-- **C270.** The peak taken from a waveform is a value of the waveform or the opposite of one. -/
theorem peak_in_waveform (m : MagnetizingCurrent) (p : ℝ) (hnone : m.peak = none) (h : peakOf (some m) = .ok p) :
    p ∈ m.waveform ∨ -p ∈ m.waveform := by
  have g1 : ∀ (l : List ℝ) (x : ℝ), greatest x l ∈ x :: l := by
    intro l
    induction l with
    | nil => intro x; simp [greatest]
    | cons a l ih =>
      intro x
      have : greatest x (a :: l) = greatest (max x a) l := rfl
      rw [this]
      rcases List.mem_cons.mp (ih (max x a)) with h | h
      · rw [h]; rcases max_choice x a with h | h <;> rw [h] <;> simp
      · simp [h]
  have g2 : ∀ (l : List ℝ) (x : ℝ), least x l ∈ x :: l := by
    intro l
    induction l with
    | nil => intro x; simp [least]
    | cons a l ih =>
      intro x
      have : least x (a :: l) = least (min x a) l := rfl
      rw [this]
      rcases List.mem_cons.mp (ih (min x a)) with h | h
      · rw [h]; rcases min_choice x a with h | h <;> rw [h] <;> simp
      · simp [h]
  simp only [peakOf, hnone] at h
  split at h
  · simp at h
  · rename_i x l hw
    simp only [Res.ok.injEq] at h
    subst h
    rw [hw]
    rcases max_choice (greatest x l) (-(least x l)) with h | h
    · left; rw [h]; exact g1 l x
    · right; rw [h, neg_neg]; exact g2 l x

/-- **C270.** An operating point without a magnetizing current, or whose current has neither a peak nor a waveform, is refused. -/
theorem required_energy_refused (inductance : Dimension) (points : List (Option MagnetizingCurrent))
    (h : none ∈ points ∨ some ⟨none, []⟩ ∈ points) : requiredEnergy inductance points = .throws := by
  have hd : ∀ m, (∃ p, peakOf m = .ok p) ∨ peakOf m = .throws := by
    intro m
    cases m with
    | none => right; rfl
    | some m =>
      obtain ⟨pk, wf⟩ := m
      cases pk with
      | some p => left; exact ⟨p, rfl⟩
      | none => cases wf with
        | nil => right; rfl
        | cons x l => left; exact ⟨_, rfl⟩
  have key : ∀ (top : ℝ) (pts : List (Option MagnetizingCurrent)), (∃ m ∈ pts, peakOf m = .throws) → highest top pts = .throws := by
    intro top pts
    induction pts generalizing top with
    | nil => simp
    | cons m rest ih =>
      rintro ⟨m', hm', ht⟩
      simp only [highest]
      rcases hd m with ⟨p, hp⟩ | hp
      · rw [hp]
        rcases List.mem_cons.mp hm' with rfl | hm'
        · rw [hp] at ht; simp at ht
        · exact ih _ ⟨m', hm', ht⟩
      · rw [hp]
  unfold requiredEnergy
  rw [key 0 points (by rcases h with h | h; exact ⟨_, h, rfl⟩; exact ⟨_, h, rfl⟩)]

example : requiredEnergy ⟨some 1, none, none⟩ [some ⟨some 2, []⟩, none] = .throws := required_energy_refused _ _ (by simp)

example : ∃ r, requiredEnergy ⟨some 1, none, some 2⟩ [some ⟨some 2, []⟩, some ⟨none, [-3, 1]⟩] = .ok r := ⟨_, rfl⟩

/-! ## The clearance of a drum with a ring -/

/-- **C271.** A clearance of a drum with a ring, of a positive length, flange and circumference, is answered, with a factor of one
or more, and with no more reluctance than without fringing; and the reluctance is that over the factor. -/
theorem clearance_fringed (saturation : ℝ) (s : DrumRing) (g : Gap) (area y : ℝ) (ha : g.area = some area) (hy : g.y = some y)
    (hl : 0 < g.length) (hfl : 0 < flangeOf s y) (hc : 0 < s.a + s.k) (he1 : 0 ≤ (escapes s (flangeOf s y)).1)
    (he2 : 0 ≤ (escapes s (flangeOf s y)).2) :
    ∃ a, clearance saturation s g = .ok a ∧ 1 ≤ a.factor ∧
      a.reluctance * a.factor = g.length / (mu0 * (Real.pi * (s.a + s.k) / 2 * flangeOf s y)) ∧
      0 < a.reluctance ∧ a.reluctance ≤ g.length / (mu0 * (Real.pi * (s.a + s.k) / 2 * flangeOf s y)) ∧ a.method = "AnnularClearance" := by
  have hm := mu0_pos
  have hpi := Real.pi_pos
  have hft : ∀ h, 0 ≤ fringeTerm g.length h := by
    intro h
    unfold fringeTerm
    split_ifs
    · exact le_refl 0
    · exact le_max_right _ _
  simp only [clearance, ha, hy]
  rw [if_neg (by
    intro hcc
    rcases hcc with h | h | h
    · linarith
    · linarith
    · linarith)]
  set flange := flangeOf s y
  have hx := hft (escapes s flange).1
  have hz := hft (escapes s flange).2
  have hsig : sigma s g.length flange =
      flange / g.length / (flange / g.length + (fringeTerm g.length (escapes s flange).1 + fringeTerm g.length (escapes s flange).2) / 2) := by
    unfold sigma clearanceBlock
    generalize fringeTerm g.length (escapes s flange).1 = t1 at *
    generalize fringeTerm g.length (escapes s flange).2 = t2 at *
    have e : 2 * (g.length / 2) = g.length := by ring
    rw [e]
    have h1 : 0 < flange / g.length + t1 := by positivity
    have h2 : 0 < flange / g.length + t2 := by positivity
    have h3 : 0 < flange / g.length + (t1 + t2) / 2 := by positivity
    have e2 : 1 / (2 * (1 / mu0 / (flange / g.length + t1))) + 1 / (2 * (1 / mu0 / (flange / g.length + t2))) =
        mu0 * (flange / g.length + (t1 + t2) / 2) := by
      have h1' := h1.ne'
      have h2' := h2.ne'
      field_simp
      ring
    rw [e2]
    have h3' := h3.ne'
    generalize flange / g.length + (t1 + t2) / 2 = T at *
    field_simp
  have hT : 0 < flange / g.length + (fringeTerm g.length (escapes s flange).1 + fringeTerm g.length (escapes s flange).2) / 2 := by
    positivity
  have hs0 : 0 < sigma s g.length flange := by rw [hsig]; positivity
  have hs1 : sigma s g.length flange ≤ 1 := by
    rw [hsig, div_le_one hT]
    linarith
  refine ⟨_, rfl, ?_, ?_, ?_, ?_, rfl⟩
  · simp only [answer]; rw [le_div_iff₀ hs0]; linarith
  · simp only [answer]
    field_simp
  · simp only [answer]; positivity
  · simp only [answer]
    rw [show mu0 * (Real.pi * (s.a + s.k) / 2) * flange = mu0 * (Real.pi * (s.a + s.k) / 2 * flange) by ring]
    apply div_le_div_of_nonneg_right _ (by positivity)
    nlinarith

/-- **C271.** The clearances at the two flanges are answered for the flange that each faces. -/
theorem clearance_faces_flange (saturation : ℝ) (s : DrumRing) (g : Gap) (y : ℝ) (hy : g.y = some y) :
    (0 ≤ y → clearance saturation s g = clearance saturation { s with f := s.d } g) ∧
    (y < 0 → clearance saturation s g = clearance saturation { s with d := s.f } g) := by
  constructor
  · intro h
    cases ha : g.area <;> simp only [clearance, ha, hy, flangeOf, ge_iff_le, if_pos h, sigma, escapes]
  · intro h
    cases ha : g.area <;> simp only [clearance, ha, hy, flangeOf, ge_iff_le, if_neg (not_le.mpr h), sigma, escapes]

/-- A drum of six millimetres with a ring of eight. -/
noncomputable def ring : DrumRing := ⟨0.006, 0.005, 0.001, 0.001, 0.008, 0.0062, 0.005⟩

example : ∃ a, clearance 0.3 ring ⟨0.0001, some 0.00002, none, none, none, none, some 0.002⟩ = .ok a ∧ 1 ≤ a.factor := by
  obtain ⟨a, h, hf, -⟩ := clearance_fringed 0.3 ring ⟨0.0001, some 0.00002, none, none, none, none, some 0.002⟩ _ _ rfl rfl
    (by norm_num) (by norm_num [flangeOf, ring]) (by norm_num [ring]) (by norm_num [flangeOf, escapes, ring])
    (by norm_num [flangeOf, escapes, ring])
  exact ⟨a, h, hf⟩

end Verif.Reluctance
