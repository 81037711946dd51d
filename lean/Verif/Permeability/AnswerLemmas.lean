import Verif.Permeability.CurveLemmas

/-! # Lemmas: answers on a thread that was asked nothing -/

namespace Verif.Permeability

set_option linter.unusedSimpArgs false

/-! ## The temperature closest to the ambient -/

/-- At the temperature closest to the ambient of those measured, or without one. -/
def AtAmbient (ambient : ℚ) (points : List Point) (p : Point) : Prop :=
  ∀ t, p.temperature = some t → ∀ q ∈ points, ∀ u, q.temperature = some u → |t - ambient| ≤ |u - ambient|

/-- No two temperatures are at the same distance of the ambient. -/
def NoTie (ambient : ℚ) (points : List Point) : Prop :=
  ∀ p ∈ points, ∀ q ∈ points, ∀ t u, p.temperature = some t → q.temperature = some u →
    |t - ambient| = |u - ambient| → t = u

/-- The step of `closest`. -/
def closerOf (ambient : ℚ) (best : Option ℚ) (t : ℚ) : Option ℚ :=
  match best with
  | none => some t
  | some b => if |t - ambient| < |b - ambient| then some t else some b

theorem closest_some (ambient : ℚ) : ∀ (l : List ℚ) (b : ℚ), ∃ c, l.foldl (closerOf ambient) (some b) = some c ∧
    c ∈ b :: l ∧ ∀ x ∈ b :: l, |c - ambient| ≤ |x - ambient|
  | [], b => ⟨b, rfl, by simp, by simp⟩
  | t :: rest, b => by
    by_cases h : |t - ambient| < |b - ambient|
    · obtain ⟨c, h1, h2, h3⟩ := closest_some ambient rest t
      refine ⟨c, ?_, ?_, ?_⟩
      · rw [List.foldl_cons, closerOf, if_pos h]; exact h1
      · exact List.mem_cons_of_mem _ h2
      · intro x hx
        rcases List.mem_cons.mp hx with rfl | hx
        · exact le_trans (h3 t List.mem_cons_self) (le_of_lt h)
        · exact h3 x hx
    · obtain ⟨c, h1, h2, h3⟩ := closest_some ambient rest b
      refine ⟨c, ?_, ?_, ?_⟩
      · rw [List.foldl_cons, closerOf, if_neg h]; exact h1
      · rcases List.mem_cons.mp h2 with rfl | h2
        · exact List.mem_cons_self
        · exact List.mem_cons_of_mem _ (List.mem_cons_of_mem _ h2)
      · intro x hx
        rcases List.mem_cons.mp hx with rfl | hx
        · exact h3 x List.mem_cons_self
        · rcases List.mem_cons.mp hx with rfl | hx
          · exact le_trans (h3 b List.mem_cons_self) (not_lt.mp h)
          · exact h3 x (List.mem_cons_of_mem _ hx)

theorem closest_eq (ambient : ℚ) (points : List Point) :
    closest ambient points = (points.filterMap fun p => p.temperature).foldl (closerOf ambient) none := rfl

theorem all_closest {ambient : ℚ} {points : List Point} {p : Point} (hp : p ∈ points) (hn : NoTie ambient points) :
    (p.temperature.all fun t => decide (some t = closest ambient points)) = true ↔ AtAmbient ambient points p := by
  unfold AtAmbient
  cases ht : p.temperature with
  | none => simp
  | some t =>
    have hmem : t ∈ points.filterMap fun p => p.temperature := List.mem_filterMap.mpr ⟨p, hp, ht⟩
    rw [closest_eq]
    cases hl : points.filterMap fun p => p.temperature with
    | nil => rw [hl] at hmem; simp at hmem
    | cons a rest =>
      rw [List.foldl_cons]
      obtain ⟨c, h1, h2, h3⟩ := closest_some ambient rest a
      rw [show closerOf ambient none a = some a from rfl, h1]
      simp only [Option.all_some, decide_eq_true_eq, Option.some.injEq, forall_eq']
      rw [← hl] at h2 h3
      constructor
      · rintro rfl q hq u hu
        exact h3 u (List.mem_filterMap.mpr ⟨q, hq, hu⟩)
      · intro h
        obtain ⟨q, hq, hqc⟩ := List.mem_filterMap.mp h2
        exact hn p hp q hq t c ht hqc (le_antisymm (h q hq c hqc) (h3 t hmem))

theorem mem_frequencyPoints {env : Env} {points : List Point} {p : Point} (hn : NoTie env.ambient points) :
    p ∈ frequencyPoints env points ↔
      p ∈ points ∧ AtAmbient env.ambient points p ∧ AtLeast (fun p => p.bias) points p := by
  unfold frequencyPoints
  rw [List.mem_filter, Bool.and_eq_true]
  constructor
  · rintro ⟨h, h1, h2⟩
    exact ⟨h, (all_closest h hn).mp h1, (all_least (fun p => p.bias) 0 h).mp h2⟩
  · rintro ⟨h, h1, h2⟩
    exact ⟨h, (all_closest h hn).mpr h1, (all_least (fun p => p.bias) 0 h).mpr h2⟩

theorem mem_biasPoints {env : Env} {points : List Point} {p : Point} (hn : NoTie env.ambient points) :
    p ∈ biasPoints env points ↔
      p ∈ points ∧ AtAmbient env.ambient points p ∧ AtLeast (fun p => p.frequency) points p := by
  unfold biasPoints
  rw [List.mem_filter, Bool.and_eq_true]
  constructor
  · rintro ⟨h, h1, h2⟩
    exact ⟨h, (all_closest h hn).mp h1, (all_least (fun p => p.frequency) env.quasiStatic h).mp h2⟩
  · rintro ⟨h, h1, h2⟩
    exact ⟨h, (all_closest h hn).mpr h1, (all_least (fun p => p.frequency) env.quasiStatic h).mpr h2⟩

/-- Pairs of a part of the points. -/
theorem pairwise_part {f : Point → Option ℚ} {points used : List Point} {P : Point → Prop} (hs : used.Sublist points)
    (hu : ∀ p ∈ used, P p) (h : points.Pairwise fun a b => P a → P b → f a ≠ f b) :
    used.Pairwise fun a b => f a ≠ f b :=
  (h.sublist hs).imp_of_mem fun ha hb hab => hab (hu _ ha) (hu _ hb)

/-- Three different abscissas make at least three points. -/
theorem three_points {f : Point → Option ℚ} {used : List Point} {p q r : Point} (hp : p ∈ used) (hq : q ∈ used)
    (hr : r ∈ used) (h1 : f p ≠ f q) (h2 : f p ≠ f r) (h3 : f q ≠ f r) : 3 ≤ used.length := by
  have hpq : p ≠ q := fun h => h1 (by rw [h])
  have hpr : p ≠ r := fun h => h2 (by rw [h])
  have hqr : q ≠ r := fun h => h3 (by rw [h])
  have hnd : [p, q, r].Nodup := by simp [hpq, hpr, hqr]
  exact (List.subperm_of_subset hnd (by intro x hx; simp at hx; rcases hx with rfl | rfl | rfl <;> assumption)).length_le

/-! ## What decides the answer -/

section

variable {env : Env} {m : Material} {points : List Point}

/-- Answers about a material do not depend on caches filled by it. -/
abbrev Steady (env : Env) (m : Material) {α : Type} (x : M α) : Prop :=
  Stable env (fun _ => .fail .other) (fun m' => m' = m) x

theorem oneOf_self (m : Material) : OneOf fun m' => m' = m := by
  rintro a b rfl rfl _; rfl

theorem bind_ok_iff {α β : Type} {x : M α} {f : α → M β} (hx : Steady env m x) (hf : ∀ a, Steady env m (f a)) {b : β} :
    (M.bind x f Caches.empty).2 = .ok b ↔ ∃ a, (x Caches.empty).2 = .ok a ∧ (f a Caches.empty).2 = .ok b := by
  have hF := (hx _ (faithful_empty _ _ _)).2
  constructor
  · intro h
    obtain ⟨a, ha, hb⟩ := bind_ok h
    exact ⟨a, ha, by rw [← (hf a _ hF).1]; exact hb⟩
  · rintro ⟨a, ha, hb⟩
    rw [bind_of_ok ha, (hf a _ hF).1, hb]

theorem bind_ub_iff {α β : Type} {x : M α} {f : α → M β} (hx : Steady env m x) (hf : ∀ a, Steady env m (f a)) :
    (M.bind x f Caches.empty).2 = .ub ↔
      (x Caches.empty).2 = .ub ∨ ∃ a, (x Caches.empty).2 = .ok a ∧ (f a Caches.empty).2 = .ub := by
  have hF := (hx _ (faithful_empty _ _ _)).2
  cases hr : (x Caches.empty).2 with
  | ok a =>
    rw [bind_of_ok hr, (hf a _ hF).1]
    simp
  | throws e => rw [bind_of_throws hr]; simp
  | ub => rw [bind_of_ub hr]; simp

theorem steady_temperature (env : Env) (m : Material) (x : ℚ) : Steady env m (temperatureDependent env m x) :=
  stable_temperature (oneOf_self m) rfl x

theorem steady_frequency (env : Env) (m : Material) (x : ℚ) : Steady env m (frequencyDependent env m x) :=
  stable_frequency (oneOf_self m) rfl x

theorem steady_bias (env : Env) (m : Material) (x : ℚ) : Steady env m (biasDependent env m x) :=
  stable_bias (oneOf_self m) rfl x

theorem steady_reference (env : Env) (m : Material) (points : List Point) : Steady env m (reference env m points) :=
  stable_reference (oneOf_self m) rfl points

theorem steady_factor (env : Env) (m : Material) (u : Bool) (x : Option ℚ) {d : ℚ → M ℚ} (r : ℚ)
    (hd : ∀ y, Steady env m (d y)) : Steady env m (factorIf u x d r) :=
  stable_factorIf u x r hd

/-- The factor of saturation, when it is used. -/
def saturationIf (env : Env) (m : Material) (points : List Point) (t h b : Option ℚ) (ref : ℚ) : Res (Option ℚ) :=
  if hasBias points = false then saturation env m t h b ref else .ok (some 1)

theorem saturationIf_eq (points : List Point) (t h b : Option ℚ) (ref : ℚ) (c : Caches) :
    ((if hasBias points = false then M.lift (saturation env m t h b ref) else M.pure (some 1)) c).2 =
      saturationIf env m points t h b ref := by
  unfold saturationIf
  split <;> rfl

/-- What a factor can be. -/
theorem factorIf_ok {u : Bool} {x : Option ℚ} {d : ℚ → M ℚ} {ref : ℚ} {r : Option ℚ}
    (h : (factorIf u x d ref Caches.empty).2 = .ok r) :
    (∃ a w, u = true ∧ x = some a ∧ (d a Caches.empty).2 = .ok w ∧ r = factor w ref) ∨
    ((u = false ∨ x = none) ∧ r = some 1) := by
  cases u with
  | false => right; simp [factorIf, M.pure] at h; exact ⟨Or.inl rfl, h.symm⟩
  | true =>
    cases x with
    | none => right; simp [factorIf, M.pure] at h; exact ⟨Or.inr rfl, h.symm⟩
    | some a =>
      left
      simp only [factorIf] at h
      obtain ⟨w, hw, h⟩ := bind_ok h
      simp only [M.pure, Res.ok.injEq] at h
      exact ⟨a, w, rfl, rfl, hw, h.symm⟩

theorem factorIf_none (u : Bool) (d : ℚ → M ℚ) (ref : ℚ) : (factorIf u none d ref Caches.empty).2 = .ok (some 1) := by
  cases u <;> rfl

theorem factorIf_some {d : ℚ → M ℚ} {ref a w : ℚ} (h : (d a Caches.empty).2 = .ok w) :
    (factorIf true (some a) d ref Caches.empty).2 = .ok (factor w ref) := by
  unfold factorIf
  simp only
  rw [bind_of_ok h]
  rfl

theorem fromPoints_ok {t h f b : Option ℚ} {v : Option ℚ} (hne : points ≠ []) :
    (fromPoints env m points t h f b Caches.empty).2 = .ok v ↔
      ∃ ref ft ff fh fs, (reference env m points Caches.empty).2 = .ok ref ∧
        (factorIf (hasTemperature points) t (temperatureDependent env m) ref Caches.empty).2 = .ok ft ∧
        (factorIf (hasFrequency env points) f (frequencyDependent env m) ref Caches.empty).2 = .ok ff ∧
        (factorIf (hasBias points) h (biasDependent env m) ref Caches.empty).2 = .ok fh ∧
        saturationIf env m points t h b ref = .ok fs ∧ product ref [ft, ff, fh, fs] = v := by
  unfold fromPoints
  rw [if_neg hne]
  have s1 := steady_reference env m points
  have s2 := fun r => steady_factor env m (hasTemperature points) t r (steady_temperature env m)
  have s3 := fun r => steady_factor env m (hasFrequency env points) f r (steady_frequency env m)
  have s4 := fun r => steady_factor env m (hasBias points) h r (steady_bias env m)
  have s5 : ∀ r, Steady env m (if hasBias points = false then M.lift (saturation env m t h b r) else M.pure (some 1)) :=
    fun r => stable_ite (fun _ => stable_lift _) (fun _ => stable_pure _)
  have t4 : ∀ r ft ff fh, Steady env m (M.bind (if hasBias points = false then M.lift (saturation env m t h b r)
      else M.pure (some 1)) fun fs => M.pure (product r [ft, ff, fh, fs])) :=
    fun r _ _ _ => stable_bind (s5 r) fun _ _ => stable_pure _
  have t3 : ∀ r ft ff, Steady env m (M.bind (factorIf (hasBias points) h (biasDependent env m) r) fun fh =>
      M.bind (if hasBias points = false then M.lift (saturation env m t h b r)
      else M.pure (some 1)) fun fs => M.pure (product r [ft, ff, fh, fs])) :=
    fun r _ _ => stable_bind (s4 r) fun _ _ => t4 _ _ _ _
  have t2 : ∀ r ft, Steady env m (M.bind (factorIf (hasFrequency env points) f (frequencyDependent env m) r) fun ff =>
      M.bind (factorIf (hasBias points) h (biasDependent env m) r) fun fh =>
      M.bind (if hasBias points = false then M.lift (saturation env m t h b r)
      else M.pure (some 1)) fun fs => M.pure (product r [ft, ff, fh, fs])) :=
    fun r _ => stable_bind (s3 r) fun _ _ => t3 _ _ _
  have t1 : ∀ r, Steady env m (M.bind (factorIf (hasTemperature points) t (temperatureDependent env m) r) fun ft =>
      M.bind (factorIf (hasFrequency env points) f (frequencyDependent env m) r) fun ff =>
      M.bind (factorIf (hasBias points) h (biasDependent env m) r) fun fh =>
      M.bind (if hasBias points = false then M.lift (saturation env m t h b r)
      else M.pure (some 1)) fun fs => M.pure (product r [ft, ff, fh, fs])) :=
    fun r => stable_bind (s2 r) fun _ _ => t2 _ _
  rw [bind_ok_iff s1 t1]
  constructor
  · rintro ⟨ref, h1, h⟩
    rw [bind_ok_iff (s2 ref) (t2 ref)] at h
    obtain ⟨ft, h2, h⟩ := h
    rw [bind_ok_iff (s3 ref) (t3 ref ft)] at h
    obtain ⟨ff, h3, h⟩ := h
    rw [bind_ok_iff (s4 ref) (t4 ref ft ff)] at h
    obtain ⟨fh, h4, h⟩ := h
    rw [bind_ok_iff (s5 ref) (fun _ => stable_pure _)] at h
    obtain ⟨fs, h5, h⟩ := h
    rw [saturationIf_eq] at h5
    exact ⟨ref, ft, ff, fh, fs, h1, h2, h3, h4, h5, by simpa [M.pure] using h⟩
  · rintro ⟨ref, ft, ff, fh, fs, h1, h2, h3, h4, h5, h6⟩
    refine ⟨ref, h1, ?_⟩
    rw [bind_ok_iff (s2 ref) (t2 ref)]
    refine ⟨ft, h2, ?_⟩
    rw [bind_ok_iff (s3 ref) (t3 ref ft)]
    refine ⟨ff, h3, ?_⟩
    rw [bind_ok_iff (s4 ref) (t4 ref ft ff)]
    refine ⟨fh, h4, ?_⟩
    rw [bind_ok_iff (s5 ref) (fun _ => stable_pure _)]
    refine ⟨fs, ?_, ?_⟩
    · rw [saturationIf_eq]; exact h5
    · rw [← h6]; rfl

theorem fromPoints_ub {t h f b : Option ℚ} (hne : points ≠ [])
    (hub : (fromPoints env m points t h f b Caches.empty).2 = .ub) :
    (reference env m points Caches.empty).2 = .ub ∨
    (∃ ref, (factorIf (hasTemperature points) t (temperatureDependent env m) ref Caches.empty).2 = .ub) ∨
    (∃ ref, (factorIf (hasFrequency env points) f (frequencyDependent env m) ref Caches.empty).2 = .ub) ∨
    (∃ ref, (factorIf (hasBias points) h (biasDependent env m) ref Caches.empty).2 = .ub) ∨
    (∃ ref, saturationIf env m points t h b ref = .ub) := by
  unfold fromPoints at hub
  rw [if_neg hne] at hub
  have s1 := steady_reference env m points
  have s2 := fun r => steady_factor env m (hasTemperature points) t r (steady_temperature env m)
  have s3 := fun r => steady_factor env m (hasFrequency env points) f r (steady_frequency env m)
  have s4 := fun r => steady_factor env m (hasBias points) h r (steady_bias env m)
  have s5 : ∀ r, Steady env m (if hasBias points = false then M.lift (saturation env m t h b r) else M.pure (some 1)) :=
    fun r => stable_ite (fun _ => stable_lift _) (fun _ => stable_pure _)
  rw [bind_ub_iff s1 (fun r => stable_bind (s2 r) fun _ _ => stable_bind (s3 r) fun _ _ =>
    stable_bind (s4 r) fun _ _ => stable_bind (s5 r) fun _ _ => stable_pure _)] at hub
  rcases hub with hub | ⟨ref, _, hub⟩
  · exact Or.inl hub
  right
  rw [bind_ub_iff (s2 ref) (fun _ => stable_bind (s3 ref) fun _ _ =>
    stable_bind (s4 ref) fun _ _ => stable_bind (s5 ref) fun _ _ => stable_pure _)] at hub
  rcases hub with hub | ⟨ft, _, hub⟩
  · exact Or.inl ⟨ref, hub⟩
  right
  rw [bind_ub_iff (s3 ref) (fun _ => stable_bind (s4 ref) fun _ _ => stable_bind (s5 ref) fun _ _ => stable_pure _)] at hub
  rcases hub with hub | ⟨ff, _, hub⟩
  · exact Or.inl ⟨ref, hub⟩
  right
  rw [bind_ub_iff (s4 ref) (fun _ => stable_bind (s5 ref) fun _ _ => stable_pure _)] at hub
  rcases hub with hub | ⟨fh, _, hub⟩
  · exact Or.inl ⟨ref, hub⟩
  right
  rw [bind_ub_iff (s5 ref) (fun _ => stable_pure _)] at hub
  rcases hub with hub | ⟨fs, _, hub⟩
  · rw [saturationIf_eq] at hub
    exact ⟨ref, hub⟩
  · simp [M.pure] at hub

theorem factorIf_ub {u : Bool} {x : Option ℚ} {d : ℚ → M ℚ} {ref : ℚ}
    (h : (factorIf u x d ref Caches.empty).2 = .ub) : u = true ∧ ∃ a, x = some a ∧ (d a Caches.empty).2 = .ub := by
  cases u with
  | false => simp [factorIf, M.pure] at h
  | true =>
    cases x with
    | none => simp [factorIf, M.pure] at h
    | some a =>
      refine ⟨rfl, a, rfl, ?_⟩
      simp only [factorIf] at h
      cases hr : (d a Caches.empty).2 with
      | ok w => rw [bind_of_ok hr] at h; simp [M.pure] at h
      | throws e => rw [bind_of_throws hr] at h; simp at h
      | ub => rfl

/-! ## Above the Curie temperature or not -/

theorem not_aboveCurie {c t : Option ℚ} (h : ∀ x y, c = some x → t = some y → y ≤ x) : ¬ aboveCurie c t = true := by
  unfold aboveCurie
  split
  · rename_i x y
    simpa using h x y rfl rfl
  · simp

theorem initial_ok_iff {t h f b : Option ℚ} {c : Caches} {v : ℚ}
    (hc : ∀ x y, m.curie = some x → t = some y → y ≤ x) :
    (initialPermeability env m t h f b c).2 = .ok v ↔ (beforeCurie env m t h f b c).2 = .ok (some v) := by
  unfold initialPermeability
  constructor
  · intro hv
    obtain ⟨w, hw, hv⟩ := bind_ok hv
    rw [hw]
    rw [if_neg (not_aboveCurie hc)] at hv
    cases w with
    | none => simp [M.lift] at hv
    | some w => simp only [M.pure, Res.ok.injEq] at hv; rw [hv]
  · intro hv
    rw [bind_of_ok hv, if_neg (not_aboveCurie hc)]
    rfl

theorem initial_points_iff (hm : m.initial = .measured points) {t h f b : Option ℚ} {c : Caches} {v : ℚ}
    (hc : ∀ x y, m.curie = some x → t = some y → y ≤ x) :
    (initialPermeability env m t h f b c).2 = .ok v ↔ (fromPoints env m points t h f b c).2 = .ok (some v) := by
  rw [initial_ok_iff hc]
  unfold beforeCurie
  rw [hm]

theorem initial_ub (hm : m.initial = .measured points) {t h f b : Option ℚ} {c : Caches}
    (hu : (initialPermeability env m t h f b c).2 = .ub) : (fromPoints env m points t h f b c).2 = .ub := by
  unfold initialPermeability at hu
  have e : beforeCurie env m t h f b c = fromPoints env m points t h f b c := by
    unfold beforeCurie; rw [hm]
  cases hr : (beforeCurie env m t h f b c).2 with
  | ok w =>
    rw [bind_of_ok hr] at hu
    split at hu
    · simp [M.pure] at hu
    · split at hu
      · simp [M.pure] at hu
      · simp [M.lift] at hu
  | throws e => rw [bind_of_throws hr] at hu; simp at hu
  | ub => rw [← e]; exact hr

/-! ## Values of the curves -/

/-- The value at a temperature, when every point used has one. -/
theorem temperatureDependent_eq (hm : m.initial = .measured points) (hne : temperaturePoints env points ≠ [])
    {l : List (ℚ × ℚ)} (hl : abscissas (fun p => p.temperature) (temperaturePoints env points) = some l) {k : Curve}
    (hk : temperatureCurve l = .ok k) (t : ℚ) :
    (temperatureDependent env m t Caches.empty).2 =
      .ok (if m.curie.any fun x => decide (t > x) then 1 else max 1 (k.eval env t)) := by
  unfold temperatureDependent
  rw [hm]
  cases hpts : points with
  | nil => rw [hpts] at hne; simp [temperaturePoints] at hne
  | cons a rest =>
    rw [hpts] at hne hl
    simp only
    rw [if_neg hne, show Caches.empty.temperature m.name = none from rfl]
    simp only [hl, hk]

theorem frequencyDependent_eq (hm : m.initial = .measured points) (hne : frequencyPoints env points ≠ [])
    {l : List (ℚ × ℚ)} (hl : abscissas (fun p => p.frequency) (frequencyPoints env points) = some l) {k : Curve}
    (hk : otherCurve l = .ok k) (f : ℚ) :
    (frequencyDependent env m f Caches.empty).2 = .ok (otherValue env k f) := by
  have hpo : frequencyPointsOf env m = some (frequencyPoints env points) := by
    unfold frequencyPointsOf
    rw [hm]
    cases hpts : points with
    | nil => rw [hpts] at hne; simp [frequencyPoints] at hne
    | cons a rest => rfl
  unfold frequencyDependent
  rw [hpo]
  simp only
  rw [if_neg hne, show Caches.empty.frequency m.name = none from rfl]
  simp only [hl, hk]

theorem biasDependent_eq (hm : m.initial = .measured points) (hne : biasPoints env points ≠ [])
    {l : List (ℚ × ℚ)} (hl : abscissas (fun p => p.bias) (biasPoints env points) = some l) {k : Curve}
    (hk : otherCurve l = .ok k) (f : ℚ) :
    (biasDependent env m f Caches.empty).2 = .ok (otherValue env k f) := by
  unfold biasDependent
  rw [hm]
  cases hpts : points with
  | nil => rw [hpts] at hne; simp [biasPoints] at hne
  | cons a rest =>
    rw [hpts] at hne hl
    simp only
    rw [if_neg hne, show Caches.empty.bias m.name = none from rfl]
    simp only [hl, hk]

theorem abscissas_mem (f : Point → Option ℚ) : ∀ {points : List Point} {l : List (ℚ × ℚ)}, abscissas f points = some l →
    ∀ q ∈ l, ∃ p ∈ points, f p = some q.1 ∧ q.2 = p.value
  | [], l, h => by simp [abscissas] at h; subst h; simp
  | p :: rest, l, h => by
    unfold abscissas at h
    split at h
    · rename_i x l' hx hl'
      simp only [Option.some.injEq] at h
      subst h
      intro q hq
      rcases List.mem_cons.mp hq with rfl | hq
      · exact ⟨p, List.mem_cons_self, hx, rfl⟩
      · obtain ⟨r, hr, hr'⟩ := abscissas_mem f hl' q hq
        exact ⟨r, List.mem_cons_of_mem _ hr, hr'⟩
    · simp at h

/-- A value above a threshold not above one is kept above it by the curves. -/
theorem otherValue_ge {b : ℚ} (hb : b ≤ 1) {l : List (ℚ × ℚ)} (hl : ∀ q ∈ l, b ≤ q.2) {k : Curve}
    (hk : otherCurve l = .ok k) (x : ℚ) : b ≤ otherValue env k x := by
  unfold otherCurve at hk
  split at hk
  · simp at hk
  · rename_i p hp
    simp only [Res.ok.injEq] at hk
    subst hk
    exact hl p (mem_sortPoints.mp (keepAbove_mem (by rw [hp]; simp)))
  · simp at hk
  · simp only [Res.ok.injEq] at hk
    subst hk
    exact le_trans hb (le_max_left _ _)

theorem otherValue_pos {l : List (ℚ × ℚ)} (hl : ∀ q ∈ l, 0 < q.2) {k : Curve}
    (hk : otherCurve l = .ok k) (x : ℚ) : 0 < otherValue env k x := by
  unfold otherCurve at hk
  split at hk
  · simp at hk
  · rename_i p hp
    simp only [Res.ok.injEq] at hk
    subst hk
    exact hl p (mem_sortPoints.mp (keepAbove_mem (by rw [hp]; simp)))
  · simp at hk
  · simp only [Res.ok.injEq] at hk
    subst hk
    exact lt_of_lt_of_le one_pos (le_max_left _ _)

theorem temperatureDependent_ge {t v : ℚ} (h : (temperatureDependent env m t Caches.empty).2 = .ok v) : 1 ≤ v := by
  unfold temperatureDependent at h
  split at h
  · simp at h
  · simp at h
  · simp only at h
    split at h
    · simp at h
    · rw [show Caches.empty.temperature m.name = none from rfl] at h
      simp only at h
      split at h
      · simp at h
      · split at h
        · simp only [Res.ok.injEq] at h
          subst h
          split
          · exact le_refl _
          · exact le_max_left _ _
        · simp at h
        · simp at h

/-- What a value at a frequency is. -/
theorem frequencyDependent_inv (hm : m.initial = .measured points) {x v : ℚ}
    (h : (frequencyDependent env m x Caches.empty).2 = .ok v) :
    ∃ l k, abscissas (fun p => p.frequency) (frequencyPoints env points) = some l ∧ otherCurve l = .ok k ∧
      v = otherValue env k x := by
  unfold frequencyDependent frequencyPointsOf at h
  rw [hm] at h
  cases hpts : points with
  | nil => rw [hpts] at h; simp at h
  | cons a rest =>
    rw [hpts] at h
    simp only at h
    split at h
    · simp at h
    · rw [show Caches.empty.frequency m.name = none from rfl] at h
      simp only at h
      cases hl : abscissas (fun p => p.frequency) (frequencyPoints env (a :: rest)) with
      | none => rw [hl] at h; simp at h
      | some l =>
        rw [hl] at h
        simp only at h
        cases hk : otherCurve l with
        | ok k => rw [hk] at h; simp only [Res.ok.injEq] at h; exact ⟨l, k, rfl, hk, h.symm⟩
        | throws e => rw [hk] at h; simp at h
        | ub => rw [hk] at h; simp at h

/-- What a value at a bias is. -/
theorem biasDependent_inv (hm : m.initial = .measured points) {x v : ℚ}
    (h : (biasDependent env m x Caches.empty).2 = .ok v) :
    ∃ l k, abscissas (fun p => p.bias) (biasPoints env points) = some l ∧ otherCurve l = .ok k ∧
      v = otherValue env k x := by
  unfold biasDependent at h
  rw [hm] at h
  cases hpts : points with
  | nil => rw [hpts] at h; simp at h
  | cons a rest =>
    rw [hpts] at h
    simp only at h
    split at h
    · simp at h
    · rw [show Caches.empty.bias m.name = none from rfl] at h
      simp only at h
      cases hl : abscissas (fun p => p.bias) (biasPoints env (a :: rest)) with
      | none => rw [hl] at h; simp at h
      | some l =>
        rw [hl] at h
        simp only at h
        cases hk : otherCurve l with
        | ok k => rw [hk] at h; simp only [Res.ok.injEq] at h; exact ⟨l, k, rfl, hk, h.symm⟩
        | throws e => rw [hk] at h; simp at h
        | ub => rw [hk] at h; simp at h

theorem frequencyDependent_pos (hm : m.initial = .measured points) (hp : ∀ p ∈ points, 0 < p.value) {x v : ℚ}
    (h : (frequencyDependent env m x Caches.empty).2 = .ok v) : 0 < v := by
  obtain ⟨l, k, hl, hk, rfl⟩ := frequencyDependent_inv hm h
  refine otherValue_pos (fun q hq => ?_) hk x
  obtain ⟨p, hp', _, h2⟩ := abscissas_mem _ hl q hq
  rw [h2]
  exact hp p (List.mem_filter.mp hp').1

theorem biasDependent_pos (hm : m.initial = .measured points) (hp : ∀ p ∈ points, 0 < p.value) {x v : ℚ}
    (h : (biasDependent env m x Caches.empty).2 = .ok v) : 0 < v := by
  obtain ⟨l, k, hl, hk, rfl⟩ := biasDependent_inv hm h
  refine otherValue_pos (fun q hq => ?_) hk x
  obtain ⟨p, hp', _, h2⟩ := abscissas_mem _ hl q hq
  rw [h2]
  exact hp p (List.mem_filter.mp hp').1

theorem frequencyDependent_ge (hm : m.initial = .measured points) {b : ℚ} (hb : b ≤ 1) (hp : ∀ p ∈ points, b ≤ p.value)
    {x v : ℚ} (h : (frequencyDependent env m x Caches.empty).2 = .ok v) : b ≤ v := by
  obtain ⟨l, k, hl, hk, rfl⟩ := frequencyDependent_inv hm h
  refine otherValue_ge hb (fun q hq => ?_) hk x
  obtain ⟨p, hp', _, h2⟩ := abscissas_mem _ hl q hq
  rw [h2]
  exact hp p (List.mem_filter.mp hp').1

theorem biasDependent_ge (hm : m.initial = .measured points) {b : ℚ} (hb : b ≤ 1) (hp : ∀ p ∈ points, b ≤ p.value)
    {x v : ℚ} (h : (biasDependent env m x Caches.empty).2 = .ok v) : b ≤ v := by
  obtain ⟨l, k, hl, hk, rfl⟩ := biasDependent_inv hm h
  refine otherValue_ge hb (fun q hq => ?_) hk x
  obtain ⟨p, hp', _, h2⟩ := abscissas_mem _ hl q hq
  rw [h2]
  exact hp p (List.mem_filter.mp hp').1

theorem ambientValue_mem : ∀ (l : List Point) (v : ℚ) (best : Option ℚ),
    ambientValue env l v best = v ∨ ∃ p ∈ l, ambientValue env l v best = p.value
  | [], v, _ => Or.inl rfl
  | p :: rest, v, best => by
    unfold ambientValue
    simp only
    split
    · rcases ambientValue_mem rest p.value _ with h | ⟨q, hq, h⟩
      · exact Or.inr ⟨p, List.mem_cons_self, h⟩
      · exact Or.inr ⟨q, List.mem_cons_of_mem _ hq, h⟩
    · rcases ambientValue_mem rest v best with h | ⟨q, hq, h⟩
      · exact Or.inl h
      · exact Or.inr ⟨q, List.mem_cons_of_mem _ hq, h⟩

theorem reference_pos (hm : m.initial = .measured points) (hp : ∀ p ∈ points, 0 < p.value) {ref : ℚ}
    (h : (reference env m points Caches.empty).2 = .ok ref) : 0 < ref := by
  unfold reference at h
  split at h
  · exact lt_of_lt_of_le one_pos (temperatureDependent_ge h)
  · split at h
    · exact frequencyDependent_pos hm hp h
    · split at h
      · exact biasDependent_pos hm hp h
      · simp only [M.pure, Res.ok.injEq] at h
        subst h
        rcases ambientValue_mem (env := env) points 1 none with h | ⟨p, hp', h⟩
        · rw [h]; exact one_pos
        · rw [h]; exact hp p hp'

theorem reference_ge (hm : m.initial = .measured points) {b : ℚ} (hb : b ≤ 1) (hp : ∀ p ∈ points, b ≤ p.value) {ref : ℚ}
    (h : (reference env m points Caches.empty).2 = .ok ref) : b ≤ ref := by
  unfold reference at h
  split at h
  · exact le_trans hb (temperatureDependent_ge h)
  · split at h
    · exact frequencyDependent_ge hm hb hp h
    · split at h
      · exact biasDependent_ge hm hb hp h
      · simp only [M.pure, Res.ok.injEq] at h
        subst h
        rcases ambientValue_mem (env := env) points 1 none with h | ⟨p, hp', h⟩
        · rw [h]; exact hb
        · rw [h]; exact hp p hp'

theorem hasTemperature_of {p q : Point} (hp : p ∈ points) (hq : q ∈ points) {x y : ℚ} (hx : p.temperature = some x)
    (hy : q.temperature = some y) (hxy : |x - y| > 2 / 10 ^ 9) : hasTemperature points = true := by
  have hp' : x ∈ points.filterMap fun p => p.temperature := List.mem_filterMap.mpr ⟨p, hp, hx⟩
  have hq' : y ∈ points.filterMap fun p => p.temperature := List.mem_filterMap.mpr ⟨q, hq, hy⟩
  unfold hasTemperature
  cases hl : points.filterMap fun p => p.temperature with
  | nil => rw [hl] at hp'; simp at hp'
  | cons t rest =>
    rw [hl] at hp' hq'
    simp only
    by_contra hno
    rw [Bool.not_eq_true, List.any_eq_false] at hno
    have key : ∀ z ∈ t :: rest, |t - z| ≤ 1 / 10 ^ 9 := by
      intro z hz
      rcases List.mem_cons.mp hz with rfl | hz
      · rw [sub_self, abs_zero]; norm_num
      · simpa using hno z hz
    have h1 := key x hp'
    have h2 := key y hq'
    have : |x - y| ≤ |t - x| + |t - y| := by
      have e : x - y = -(t - x) + (t - y) := by ring
      rw [e]
      refine le_trans (abs_add_le _ _) ?_
      rw [abs_neg]
    linarith

/-- One factor over the reference. -/
theorem product_one {ref w : ℚ} (h0 : ref ≠ 0) :
    product ref [factor w ref, some 1, some 1, some 1] = some w ∧
    product ref [some 1, factor w ref, some 1, some 1] = some w ∧
    product ref [some 1, some 1, factor w ref, some 1] = some w := by
  refine ⟨?_, ?_, ?_⟩ <;>
  · simp only [factor, if_neg h0, product, Option.some.injEq]
    field_simp

theorem saturationIf_none (points : List Point) (t : Option ℚ) (ref : ℚ) :
    saturationIf env m points t none none ref = .ok (some 1) := by
  unfold saturationIf
  split
  · rfl
  · rfl

/-- The reference is the answer when nothing is asked for. -/
theorem reference_of_nothing (hm : m.initial = .measured points) (hne : points ≠ []) {ref : ℚ}
    (hr : (initialPermeability env m none none none none Caches.empty).2 = .ok ref) :
    (reference env m points Caches.empty).2 = .ok ref := by
  rw [initial_points_iff hm (fun x y _ hy => by simp at hy), fromPoints_ok hne] at hr
  obtain ⟨r, ft, ff, fh, fs, h1, h2, h3, h4, h5, h6⟩ := hr
  rw [factorIf_none] at h2 h3 h4
  rw [saturationIf_none] at h5
  simp only [Res.ok.injEq] at h2 h3 h4 h5
  subst h2 h3 h4 h5
  simp [product] at h6
  rw [h1, h6]

/-! ## Points of curves -/

/-- A factor of something positive over something positive. -/
theorem factorIf_pos {u : Bool} {x : Option ℚ} {d : ℚ → M ℚ} {ref : ℚ} {r : Option ℚ} (h0 : 0 < ref)
    (hd : ∀ a w, (d a Caches.empty).2 = .ok w → 0 < w) (h : (factorIf u x d ref Caches.empty).2 = .ok r) :
    ∃ y, r = some y ∧ 0 < y := by
  rcases factorIf_ok h with ⟨a, w, _, _, hw, rfl⟩ | ⟨_, rfl⟩
  · exact ⟨w / ref, by simp [factor, ne_of_gt h0], div_pos (hd a w hw) h0⟩
  · exact ⟨1, rfl, one_pos⟩

/-- Reading points that all have a frequency. -/
theorem mapM_frequencies : ∀ (points : List (Option ℚ × ℚ)), (∀ p ∈ points, p.1 ≠ none) →
    ∃ l : List (ℚ × ℚ), (points.mapM fun p => p.1.map fun f => (f, p.2)) = some l ∧
      points = l.map fun q => (some q.1, q.2)
  | [], _ => ⟨[], rfl, rfl⟩
  | p :: rest, h => by
    obtain ⟨l, h1, h2⟩ := mapM_frequencies rest fun q hq => h q (List.mem_cons_of_mem _ hq)
    obtain ⟨f, v⟩ := p
    cases f with
    | none => exact absurd rfl (h _ List.mem_cons_self)
    | some f => exact ⟨(f, v) :: l, by simp [List.mapM_cons, h1], by simp [← h2]⟩

/-- Points at frequencies farther apart than 1e-9. -/
def Measured (points : List (Option ℚ × ℚ)) : Prop :=
  3 ≤ points.length ∧ (∀ p ∈ points, p.1 ≠ none) ∧
  points.Pairwise fun a b => ∀ x y, a.1 = some x → b.1 = some y → |x - y| > 1 / 10 ^ 9

theorem complexCurve_measured {points : List (Option ℚ × ℚ)} (h : Measured points) :
    ∃ l, complexCurve points = .ok l ∧ l.Pairwise (fun a b => a.1 < b.1) ∧ 3 ≤ l.length ∧
      ∀ x y, (some x, y) ∈ points ↔ (x, y) ∈ l := by
  obtain ⟨h3, hs, hp⟩ := h
  obtain ⟨l, h1, h2⟩ := mapM_frequencies points hs
  have ha : Apart l := by
    rw [h2, List.pairwise_map] at hp
    exact hp.imp fun h => h _ _ rfl rfl
  have hk : keepApart none (sortPoints l) = sortPoints l := keepApart_id (sortPoints_apart ha) (by simp)
  have hlen : (sortPoints l).length = points.length := by rw [sortPoints_length, h2, List.length_map]
  refine ⟨sortPoints l, ?_, sortPoints_strict (apart_distinct ha), by omega, ?_⟩
  · unfold complexCurve
    rw [if_neg (by omega), h1]
    simp only [hk]
    rw [if_neg (by omega)]
  · intro x y
    rw [mem_sortPoints, h2, List.mem_map]
    constructor
    · rintro ⟨q, hq, he⟩
      simp only [Prod.mk.injEq, Option.some.injEq] at he
      rw [← he.1, ← he.2]
      exact hq
    · intro hq
      exact ⟨(x, y), hq, rfl⟩

/-- The answer for measured points. -/
theorem complex_measured {derive : Material → Asking} {re im : List (Option ℚ × ℚ)}
    (hm : m.complex = some ⟨some re, some im⟩) {a b : List (ℚ × ℚ)} (ha : complexCurve re = .ok a)
    (hb : complexCurve im = .ok b) (h2 : 3 ≤ re.length) (f : ℚ) :
    (complexPermeability env derive m f Caches.empty).2 = .ok (complexValue env a b f) := by
  rw [complex_empty]
  refine slowComplex_ok (R := fun m' => m' = m) (oneOf_self m) rfl (p := (re, im)) ?_ ?_ ha hb f
  · unfold complexPoints
    rw [hm]
    rfl
  · simp only; omega

/-- The parts of a series resistance. -/
theorem resistance_ok {f t L v : ℚ} (h : (seriesResistance env m f t L Caches.empty).2 = .ok v) :
    ∃ mu tan, (initialPermeability env m (some t) none none none Caches.empty).2 = .ok mu ∧
      (lossFactor env m f Caches.empty).2 = .ok tan ∧ 0 ≤ tan ∧ v = tan * mu * env.twoPi * f * L := by
  unfold seriesResistance at h
  have s1 : Steady env m (initialPermeability env m (some t) none none none) := stable_initial (oneOf_self m) rfl _ _ _ _
  have s2 : Steady env m (lossFactor env m f) := stable_loss (oneOf_self m) rfl _
  rw [bind_ok_iff s1 (fun _ => stable_bind s2 fun _ _ =>
    stable_ite (fun _ => stable_lift _) fun _ => stable_pure _)] at h
  obtain ⟨mu, h1, h⟩ := h
  rw [bind_ok_iff s2 (fun _ => stable_ite (fun _ => stable_lift _) fun _ => stable_pure _)] at h
  obtain ⟨tan, h2, h⟩ := h
  split at h
  · simp [M.lift] at h
  · rename_i hn
    simp only [M.pure, Res.ok.injEq] at h
    exact ⟨mu, tan, h1, h2, not_lt.mp hn, h.symm⟩

/-- The loss factor beyond the measured band. -/
theorem lossFactor_outside {loss : List (Option ℚ × ℚ)} (hl : m.lossFactor = some loss) {f g : ℚ}
    (h : (∀ p ∈ loss, ∀ x, p.1 = some x → x ≤ f ∧ x ≤ g) ∨ (∀ p ∈ loss, ∀ x, p.1 = some x → f ≤ x ∧ g ≤ x)) :
    (lossFactor env m f Caches.empty).2 = (lossFactor env m g Caches.empty).2 := by
  unfold lossFactor
  rw [show Caches.empty.loss m.name = none from rfl, hl]
  simp only
  unfold lossCurve
  by_cases hall : ∀ p ∈ loss, p.1 ≠ none
  · obtain ⟨l, h1, h2⟩ := mapM_frequencies loss hall
    rw [h1]
    simp only
    have hs := keepAbove_strict (sortPoints l) none
    have hmem : ∀ p ∈ keepAbove none (sortPoints l), (some p.1, p.2) ∈ loss := fun p hp => by
      rw [h2]
      exact List.mem_map.mpr ⟨p, mem_sortPoints.mp (keepAbove_mem hp), rfl⟩
    generalize keepAbove none (sortPoints l) = k at hs hmem
    match k, hs, hmem with
    | [], _, _ => rfl
    | [p], _, _ => rfl
    | [p, q], hs, hmem =>
      simp only [lossValue]
      have : clampTo [(p.1, p.2), (q.1, q.2)] f = clampTo [(p.1, p.2), (q.1, q.2)] g := by
        rcases h with h | h
        · exact clampTo_above hs (fun r hr => (h _ (hmem r hr) _ rfl).1) (fun r hr => (h _ (hmem r hr) _ rfl).2) (by simp)
        · exact clampTo_below hs (fun r hr => (h _ (hmem r hr) _ rfl).1) (fun r hr => (h _ (hmem r hr) _ rfl).2) (by simp)
      rw [this]
    | p :: q :: r :: rest, hs, hmem =>
      simp only [lossValue]
      have : clampTo (p :: q :: r :: rest) f = clampTo (p :: q :: r :: rest) g := by
        rcases h with h | h
        · exact clampTo_above hs (fun r hr => (h _ (hmem r hr) _ rfl).1) (fun r hr => (h _ (hmem r hr) _ rfl).2) (by simp)
        · exact clampTo_below hs (fun r hr => (h _ (hmem r hr) _ rfl).1) (fun r hr => (h _ (hmem r hr) _ rfl).2) (by simp)
      rw [this]
  · have hn : (loss.mapM fun p => p.1.map fun f => (f, p.2)) = none := by
      clear hl h
      induction loss with
      | nil => simp at hall
      | cons p rest ih =>
        obtain ⟨x, v⟩ := p
        cases x with
        | none => simp [List.mapM_cons]
        | some x =>
          have : ¬ ∀ p ∈ rest, p.1 ≠ none := by
            intro hr
            exact hall fun p hp => by
              rcases List.mem_cons.mp hp with rfl | hp
              · simp
              · exact hr p hp
          simp [List.mapM_cons, ih this]
    rw [hn]

/-- All at the same value, or at three different values at least. -/
def OneOrThree (f : Point → Option ℚ) (P : Point → Prop) (points : List Point) : Prop :=
  (∀ p ∈ points, ∀ q ∈ points, P p → P q → f p = f q) ∨
  ∃ p ∈ points, ∃ q ∈ points, ∃ r ∈ points, P p ∧ P q ∧ P r ∧ f p ≠ f q ∧ f p ≠ f r ∧ f q ≠ f r

theorem otherCurve_defined {f : Point → Option ℚ} {P : Point → Prop} {used : List Point}
    (hu : ∀ p, p ∈ used ↔ p ∈ points ∧ P p) (hall : ∀ p ∈ points, P p → f p ≠ none) (h : OneOrThree f P points)
    (hne : used ≠ []) : ∃ l k, abscissas f used = some l ∧ otherCurve l = .ok k := by
  obtain ⟨l, h1, h2, h3, h4, _⟩ := abscissas_some f used fun p hp => hall p ((hu p).mp hp).1 ((hu p).mp hp).2
  have hl : l ≠ [] := by
    rintro rfl
    exact hne (List.eq_nil_of_length_eq_zero h2.symm)
  refine ⟨l, ?_⟩
  have hk := kept_ne_nil hl
  have hs := keepAbove_strict (sortPoints l) none
  have hc := keepAbove_covers (sortPoints_sorted l) (last := none) (by simp)
  have hm : ∀ q ∈ keepAbove none (sortPoints l), q ∈ l := fun q hq => mem_sortPoints.mp (keepAbove_mem hq)
  unfold otherCurve
  generalize keepAbove none (sortPoints l) = k at hk hs hc hm
  match k, hk, hs, hc, hm with
  | [a], _, _, _, _ => exact ⟨_, h1, rfl⟩
  | [a, b], _, hs, hc, hm =>
    exfalso
    have hab : a.1 < b.1 := by simpa using hs
    rcases h with h | ⟨p, hp, q, hq, r, hr, Pp, Pq, Pr, hpq, hpr, hqr⟩
    · obtain ⟨p, hp, hpa, _⟩ := h4 a (hm a (by simp))
      obtain ⟨q, hq, hqb, _⟩ := h4 b (hm b (by simp))
      have := h p ((hu p).mp hp).1 q ((hu q).mp hq).1 ((hu p).mp hp).2 ((hu q).mp hq).2
      rw [hpa, hqb, Option.some.injEq] at this
      linarith
    · have key : ∀ x, x ∈ points → P x → f x = some a.1 ∨ f x = some b.1 := by
        intro x hx Px
        obtain ⟨y, hy⟩ := Option.ne_none_iff_exists'.mp (hall x hx Px)
        have hmem := h3 x ((hu x).mpr ⟨hx, Px⟩) y hy
        rcases hc _ (mem_sortPoints.mpr hmem) with ⟨s, hs, hse⟩ | hn
        · simp only at hse
          rcases List.mem_cons.mp hs with rfl | hs
          · exact Or.inl (by rw [hy, hse])
          · simp only [List.mem_singleton] at hs
            subst hs
            exact Or.inr (by rw [hy, hse])
        · simp at hn
      rcases key p hp Pp with e1 | e1 <;> rcases key q hq Pq with e2 | e2 <;> rcases key r hr Pr with e3 | e3 <;>
        simp_all
  | a :: b :: c :: rest, _, _, _, _ => exact ⟨_, h1, rfl⟩

end

end Verif.Permeability
