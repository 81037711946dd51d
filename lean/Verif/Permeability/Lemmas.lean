import Verif.Permeability.Model
import Mathlib.Tactic.Linarith
import Mathlib.Tactic.Ring
import Mathlib.Tactic.FieldSimp

/-! # Lemmas on permeability: answers do not depend on caches that are faithful -/

namespace Verif.Permeability

set_option linter.unusedSimpArgs false

/-! ## Sequencing -/

theorem bind_ok {α β : Type} {m : M α} {f : α → M β} {c : Caches} {b : β} (h : (M.bind m f c).2 = .ok b) :
    ∃ a : α, (m c).2 = .ok a ∧ (f a (m c).1).2 = .ok b := by
  unfold M.bind at h
  split at h
  · rename_i c' a heq
    exact ⟨a, by rw [heq], by rw [heq]; exact h⟩
  · simp at h
  · simp at h

theorem bind_of_ok {α β : Type} {m : M α} {f : α → M β} {c : Caches} {a : α} (h : (m c).2 = .ok a) :
    M.bind m f c = f a (m c).1 := by
  unfold M.bind
  generalize m c = x at h ⊢
  obtain ⟨c', r⟩ := x
  simp only at h
  subst h
  rfl

theorem bind_of_throws {α β : Type} {m : M α} {f : α → M β} {c : Caches} {e : Err} (h : (m c).2 = .throws e) :
    M.bind m f c = ((m c).1, .throws e) := by
  unfold M.bind
  generalize m c = x at h ⊢
  obtain ⟨c', r⟩ := x
  simp only at h
  subst h
  rfl

theorem bind_of_ub {α β : Type} {m : M α} {f : α → M β} {c : Caches} (h : (m c).2 = .ub) :
    M.bind m f c = ((m c).1, .ub) := by
  unfold M.bind
  generalize m c = x at h ⊢
  obtain ⟨c', r⟩ := x
  simp only at h
  subst h
  rfl

/-! ## Faithful caches -/

/-- The curve of temperature computed from scratch. -/
def freshTemperature (env : Env) (m : Material) : Res Curve :=
  match m.initial with
  | .formula _ => .throws .badAccess
  | .measured points => match abscissas (fun p => p.temperature) (temperaturePoints env points) with
    | none => .ub
    | some l => temperatureCurve l

/-- The curve of frequency computed from scratch. -/
def freshFrequency (env : Env) (m : Material) : Res Curve :=
  match frequencyPointsOf env m with
  | none => .ub
  | some points => match abscissas (fun p => p.frequency) points with
    | none => .ub
    | some l => otherCurve l

/-- The curve of bias computed from scratch. -/
def freshBias (env : Env) (m : Material) : Res Curve :=
  match m.initial with
  | .formula _ => .throws .badAccess
  | .measured points => match abscissas (fun p => p.bias) (biasPoints env points) with
    | none => .ub
    | some l => otherCurve l

/-- The curve of the loss factor computed from scratch. -/
def freshLoss (m : Material) : Res Curve :=
  match m.lossFactor with
  | none => .throws .missingData
  | some points => lossCurve points

/-- Caches whose entries are those of the materials `R`. -/
structure Faithful (env : Env) (derive : Material → Asking) (R : Material → Prop) (c : Caches) : Prop where
  temperature : ∀ m, R m → ∀ k, c.temperature m.name = some k → freshTemperature env m = .ok k
  frequency : ∀ m, R m → ∀ k, c.frequency m.name = some k → freshFrequency env m = .ok k
  bias : ∀ m, R m → ∀ k, c.bias m.name = some k → freshBias env m = .ok k
  loss : ∀ m, R m → ∀ k, c.loss m.name = some k → freshLoss m = .ok k
  real : ∀ m, R m → ∀ l, c.real m.name = some l → ∃ p : List (Option ℚ × ℚ) × List (Option ℚ × ℚ),
    (complexPoints env derive m Caches.empty).2 = .ok p ∧ ¬ p.1.length < 2 ∧ complexCurve p.1 = .ok l
  imaginary : ∀ m, R m → ∀ l, c.imaginary m.name = some l → ∃ p : List (Option ℚ × ℚ) × List (Option ℚ × ℚ),
    (complexPoints env derive m Caches.empty).2 = .ok p ∧ ¬ p.1.length < 2 ∧ complexCurve p.2 = .ok l

theorem faithful_empty (env : Env) (derive : Material → Asking) (R : Material → Prop) :
    Faithful env derive R Caches.empty :=
  ⟨fun _ _ _ h => by simp [Caches.empty] at h, fun _ _ _ h => by simp [Caches.empty] at h,
   fun _ _ _ h => by simp [Caches.empty] at h, fun _ _ _ h => by simp [Caches.empty] at h,
   fun _ _ _ h => by simp [Caches.empty] at h, fun _ _ _ h => by simp [Caches.empty] at h⟩

/-- Answers do not depend on faithful caches, and leave faithful caches. -/
def Stable {α : Type} (env : Env) (derive : Material → Asking) (R : Material → Prop) (m : M α) : Prop :=
  ∀ c, Faithful env derive R c → (m c).2 = (m Caches.empty).2 ∧ Faithful env derive R (m c).1

section

variable {env : Env} {derive : Material → Asking} {R : Material → Prop}

theorem stable_lift {α : Type} (r : Res α) : Stable env derive R (M.lift r) := fun _ h => ⟨rfl, h⟩

theorem stable_pure {α : Type} (a : α) : Stable env derive R (M.pure a) := fun _ h => ⟨rfl, h⟩

theorem stable_bind {α β : Type} {m : M α} {f : α → M β} (hm : Stable env derive R m)
    (hf : ∀ a, (m Caches.empty).2 = .ok a → Stable env derive R (f a)) : Stable env derive R (M.bind m f) := by
  intro c hc
  obtain ⟨h1, h2⟩ := hm c hc
  obtain ⟨_, h3⟩ := hm Caches.empty (faithful_empty env derive R)
  cases hr : (m Caches.empty).2 with
  | ok a =>
    rw [hr] at h1
    rw [bind_of_ok h1, bind_of_ok hr]
    have := hf a hr
    exact ⟨by rw [(this _ h2).1, (this _ h3).1], (this _ h2).2⟩
  | throws e =>
    rw [hr] at h1
    rw [bind_of_throws h1, bind_of_throws hr]
    exact ⟨rfl, h2⟩
  | ub =>
    rw [hr] at h1
    rw [bind_of_ub h1, bind_of_ub hr]
    exact ⟨rfl, h2⟩

theorem stable_ite {α : Type} {p : Prop} [Decidable p] {m n : M α} (hm : p → Stable env derive R m)
    (hn : ¬ p → Stable env derive R n) : Stable env derive R (if p then m else n) := by
  by_cases h : p
  · rw [if_pos h]; exact hm h
  · rw [if_neg h]; exact hn h

/-- Materials with the same name are the same. -/
def OneOf (R : Material → Prop) : Prop := ∀ m m', R m → R m' → m.name = m'.name → m = m'

theorem faithful_temperature {c : Caches} (hc : Faithful env derive R c) (hR : OneOf R) {m : Material} (hm : R m)
    {k : Curve} (hk : freshTemperature env m = .ok k) :
    Faithful env derive R { c with temperature := Function.update c.temperature m.name (some k) } := by
  refine ⟨fun m' hm' k' h => ?_, hc.frequency, hc.bias, hc.loss, hc.real, hc.imaginary⟩
  by_cases hn : m'.name = m.name
  · have := hR m' m hm' hm hn
    subst this
    simp only [Function.update_self, Option.some.injEq] at h
    rw [← h]; exact hk
  · simp only [Function.update_of_ne hn] at h
    exact hc.temperature m' hm' k' h

theorem faithful_frequency {c : Caches} (hc : Faithful env derive R c) (hR : OneOf R) {m : Material} (hm : R m)
    {k : Curve} (hk : freshFrequency env m = .ok k) :
    Faithful env derive R { c with frequency := Function.update c.frequency m.name (some k) } := by
  refine ⟨hc.temperature, fun m' hm' k' h => ?_, hc.bias, hc.loss, hc.real, hc.imaginary⟩
  by_cases hn : m'.name = m.name
  · have := hR m' m hm' hm hn
    subst this
    simp only [Function.update_self, Option.some.injEq] at h
    rw [← h]; exact hk
  · simp only [Function.update_of_ne hn] at h
    exact hc.frequency m' hm' k' h

theorem faithful_bias {c : Caches} (hc : Faithful env derive R c) (hR : OneOf R) {m : Material} (hm : R m)
    {k : Curve} (hk : freshBias env m = .ok k) :
    Faithful env derive R { c with bias := Function.update c.bias m.name (some k) } := by
  refine ⟨hc.temperature, hc.frequency, fun m' hm' k' h => ?_, hc.loss, hc.real, hc.imaginary⟩
  by_cases hn : m'.name = m.name
  · have := hR m' m hm' hm hn
    subst this
    simp only [Function.update_self, Option.some.injEq] at h
    rw [← h]; exact hk
  · simp only [Function.update_of_ne hn] at h
    exact hc.bias m' hm' k' h

theorem faithful_loss {c : Caches} (hc : Faithful env derive R c) (hR : OneOf R) {m : Material} (hm : R m)
    {k : Curve} (hk : freshLoss m = .ok k) :
    Faithful env derive R { c with loss := Function.update c.loss m.name (some k) } := by
  refine ⟨hc.temperature, hc.frequency, hc.bias, fun m' hm' k' h => ?_, hc.real, hc.imaginary⟩
  by_cases hn : m'.name = m.name
  · have := hR m' m hm' hm hn
    subst this
    simp only [Function.update_self, Option.some.injEq] at h
    rw [← h]; exact hk
  · simp only [Function.update_of_ne hn] at h
    exact hc.loss m' hm' k' h

theorem stable_temperature (hR : OneOf R) {m : Material} (hm : R m) (t : ℚ) :
    Stable env derive R (temperatureDependent env m t) := by
  intro c hc
  unfold temperatureDependent
  cases hi : m.initial with
  | formula p => exact ⟨rfl, hc⟩
  | measured points =>
    cases points with
    | nil => exact ⟨rfl, hc⟩
    | cons p rest =>
      simp only
      by_cases he : temperaturePoints env (p :: rest) = []
      · rw [if_pos he, if_pos he]; exact ⟨rfl, hc⟩
      · rw [if_neg he, if_neg he]
        have h0 : Caches.empty.temperature m.name = none := rfl
        rw [h0]
        cases hk : c.temperature m.name with
        | some k =>
          have hf := hc.temperature m hm k hk
          unfold freshTemperature at hf
          rw [hi] at hf
          simp only at hf
          cases ha : abscissas (fun p => p.temperature) (temperaturePoints env (p :: rest)) with
          | none => rw [ha] at hf; simp at hf
          | some l =>
            rw [ha] at hf
            simp only at hf ⊢
            rw [hf]
            exact ⟨rfl, hc⟩
        | none =>
          cases ha : abscissas (fun p => p.temperature) (temperaturePoints env (p :: rest)) with
          | none => exact ⟨rfl, hc⟩
          | some l =>
            simp only
            cases hl : temperatureCurve l with
            | ok k =>
              refine ⟨rfl, faithful_temperature hc hR hm ?_⟩
              unfold freshTemperature
              rw [hi]
              simp only [ha]
              exact hl
            | throws e => exact ⟨rfl, hc⟩
            | ub => exact ⟨rfl, hc⟩

theorem stable_frequency (hR : OneOf R) {m : Material} (hm : R m) (f : ℚ) :
    Stable env derive R (frequencyDependent env m f) := by
  intro c hc
  unfold frequencyDependent
  cases hi : frequencyPointsOf env m with
  | none => exact ⟨rfl, hc⟩
  | some points =>
    simp only
    by_cases he : points = []
    · rw [if_pos he, if_pos he]; exact ⟨rfl, hc⟩
    · rw [if_neg he, if_neg he]
      have h0 : Caches.empty.frequency m.name = none := rfl
      rw [h0]
      cases hk : c.frequency m.name with
      | some k =>
        have hf := hc.frequency m hm k hk
        unfold freshFrequency at hf
        rw [hi] at hf
        simp only at hf
        cases ha : abscissas (fun p => p.frequency) points with
        | none => rw [ha] at hf; simp at hf
        | some l =>
          rw [ha] at hf
          simp only at hf ⊢
          rw [hf]
          exact ⟨rfl, hc⟩
      | none =>
        cases ha : abscissas (fun p => p.frequency) points with
        | none => exact ⟨rfl, hc⟩
        | some l =>
          simp only
          cases hl : otherCurve l with
          | ok k =>
            refine ⟨rfl, faithful_frequency hc hR hm ?_⟩
            unfold freshFrequency
            rw [hi]
            simp only [ha]
            exact hl
          | throws e => exact ⟨rfl, hc⟩
          | ub => exact ⟨rfl, hc⟩

theorem stable_bias (hR : OneOf R) {m : Material} (hm : R m) (x : ℚ) :
    Stable env derive R (biasDependent env m x) := by
  intro c hc
  unfold biasDependent
  cases hi : m.initial with
  | formula p => exact ⟨rfl, hc⟩
  | measured points =>
    cases points with
    | nil => exact ⟨rfl, hc⟩
    | cons p rest =>
      simp only
      by_cases he : biasPoints env (p :: rest) = []
      · rw [if_pos he, if_pos he]; exact ⟨rfl, hc⟩
      · rw [if_neg he, if_neg he]
        have h0 : Caches.empty.bias m.name = none := rfl
        rw [h0]
        cases hk : c.bias m.name with
        | some k =>
          have hf := hc.bias m hm k hk
          unfold freshBias at hf
          rw [hi] at hf
          simp only at hf
          cases ha : abscissas (fun p => p.bias) (biasPoints env (p :: rest)) with
          | none => rw [ha] at hf; simp at hf
          | some l =>
            rw [ha] at hf
            simp only at hf ⊢
            rw [hf]
            exact ⟨rfl, hc⟩
        | none =>
          cases ha : abscissas (fun p => p.bias) (biasPoints env (p :: rest)) with
          | none => exact ⟨rfl, hc⟩
          | some l =>
            simp only
            cases hl : otherCurve l with
            | ok k =>
              refine ⟨rfl, faithful_bias hc hR hm ?_⟩
              unfold freshBias
              rw [hi]
              simp only [ha]
              exact hl
            | throws e => exact ⟨rfl, hc⟩
            | ub => exact ⟨rfl, hc⟩

theorem stable_loss (hR : OneOf R) {m : Material} (hm : R m) (f : ℚ) :
    Stable env derive R (lossFactor env m f) := by
  intro c hc
  unfold lossFactor
  have h0 : Caches.empty.loss m.name = none := rfl
  rw [h0]
  cases hk : c.loss m.name with
  | some k =>
    have hf := hc.loss m hm k hk
    unfold freshLoss at hf
    cases hl : m.lossFactor with
    | none => rw [hl] at hf; simp at hf
    | some points =>
      rw [hl] at hf
      simp only at hf ⊢
      rw [hf]
      exact ⟨rfl, hc⟩
  | none =>
    cases hl : m.lossFactor with
    | none => exact ⟨rfl, hc⟩
    | some points =>
      simp only
      cases hq : lossCurve points with
      | ok k =>
        refine ⟨rfl, faithful_loss hc hR hm ?_⟩
        unfold freshLoss
        rw [hl]
        exact hq
      | throws e => exact ⟨rfl, hc⟩
      | ub => exact ⟨rfl, hc⟩

theorem stable_reference (hR : OneOf R) {m : Material} (hm : R m) (points : List Point) :
    Stable env derive R (reference env m points) := by
  unfold reference
  refine stable_ite (fun _ => stable_temperature hR hm _) fun _ => ?_
  refine stable_ite (fun _ => stable_frequency hR hm _) fun _ => ?_
  exact stable_ite (fun _ => stable_bias hR hm _) fun _ => stable_pure _

theorem stable_factorIf (used : Bool) (value : Option ℚ) {dependent : ℚ → M ℚ} (r : ℚ)
    (h : ∀ x, Stable env derive R (dependent x)) : Stable env derive R (factorIf used value dependent r) := by
  unfold factorIf
  split
  · exact stable_bind (h _) fun _ _ => stable_pure _
  · exact stable_pure _

theorem stable_initial (hR : OneOf R) {m : Material} (hm : R m) (t h f b : Option ℚ) :
    Stable env derive R (initialPermeability env m t h f b) := by
  unfold initialPermeability
  refine stable_bind ?_ fun v _ => ?_
  · unfold beforeCurie
    cases m.initial with
    | formula p => exact stable_bind (stable_lift _) fun _ _ => stable_pure _
    | measured points =>
      simp only
      unfold fromPoints
      refine stable_ite (fun _ => stable_ite (fun _ => stable_pure _) fun _ => stable_lift _) fun _ => ?_
      refine stable_bind (stable_reference hR hm _) fun ref _ => ?_
      refine stable_bind (stable_factorIf _ _ _ fun x => stable_temperature hR hm x) fun _ _ => ?_
      refine stable_bind (stable_factorIf _ _ _ fun x => stable_frequency hR hm x) fun _ _ => ?_
      refine stable_bind (stable_factorIf _ _ _ fun x => stable_bias hR hm x) fun _ _ => ?_
      refine stable_bind (stable_ite (fun _ => stable_lift _) fun _ => stable_pure _) fun _ _ => ?_
      exact stable_pure _
  · refine stable_ite (fun _ => stable_pure _) fun _ => ?_
    cases v with
    | some x => exact stable_pure _
    | none => exact stable_lift _

theorem stable_asking (hR : OneOf R) {m : Material} (hm : R m) (a : Asking) : Stable env derive R (a.run env m) := by
  induction a with
  | done re im => exact stable_pure _
  | fail e => exact stable_lift _
  | frequency f k ih => exact stable_bind (stable_frequency hR hm f) fun v _ => ih v
  | initial f k ih => exact stable_bind (stable_initial hR hm _ _ _ _) fun v _ => ih v

theorem stable_complexPoints (hR : OneOf R) {m : Material} (hm : R m) :
    Stable env derive R (complexPoints env derive m) := by
  unfold complexPoints
  cases m.complex with
  | none => exact stable_ite (fun _ => stable_asking hR hm _) fun _ => stable_lift _
  | some d =>
    simp only
    split
    · exact stable_pure _
    · exact stable_lift _

theorem stable_realPart (hR : OneOf R) {m : Material} (hm : R m) {p : List (Option ℚ × ℚ) × List (Option ℚ × ℚ)}
    (hp : (complexPoints env derive m Caches.empty).2 = .ok p) (h2 : ¬ p.1.length < 2) :
    Stable env derive R (realPart m p.1) := by
  intro c hc
  unfold realPart
  have h0 : Caches.empty.real m.name = none := rfl
  rw [h0]
  cases hk : c.real m.name with
  | some l =>
    obtain ⟨p', hp', _, hl⟩ := hc.real m hm l hk
    rw [hp, Res.ok.injEq] at hp'
    subst hp'
    simp only [hl]
    exact ⟨trivial, hc⟩
  | none =>
    simp only
    cases hl : complexCurve p.1 with
    | ok l =>
      refine ⟨rfl, hc.temperature, hc.frequency, hc.bias, hc.loss, fun m' hm' l' h => ?_, hc.imaginary⟩
      by_cases hn : m'.name = m.name
      · have := hR m' m hm' hm hn
        subst this
        simp only [Function.update_self, Option.some.injEq] at h
        subst h
        exact ⟨p, hp, h2, hl⟩
      · simp only [Function.update_of_ne hn] at h
        exact hc.real m' hm' l' h
    | throws e => exact ⟨rfl, hc⟩
    | ub => exact ⟨rfl, hc⟩

theorem stable_imaginaryPart (hR : OneOf R) {m : Material} (hm : R m) {p : List (Option ℚ × ℚ) × List (Option ℚ × ℚ)}
    (hp : (complexPoints env derive m Caches.empty).2 = .ok p) (h2 : ¬ p.1.length < 2) :
    Stable env derive R (imaginaryPart m p.2) := by
  intro c hc
  unfold imaginaryPart
  have h0 : Caches.empty.imaginary m.name = none := rfl
  rw [h0]
  cases hk : c.imaginary m.name with
  | some l =>
    obtain ⟨p', hp', _, hl⟩ := hc.imaginary m hm l hk
    rw [hp, Res.ok.injEq] at hp'
    subst hp'
    simp only [hl]
    exact ⟨trivial, hc⟩
  | none =>
    simp only
    cases hl : complexCurve p.2 with
    | ok l =>
      refine ⟨rfl, hc.temperature, hc.frequency, hc.bias, hc.loss, hc.real, fun m' hm' l' h => ?_⟩
      by_cases hn : m'.name = m.name
      · have := hR m' m hm' hm hn
        subst this
        simp only [Function.update_self, Option.some.injEq] at h
        subst h
        exact ⟨p, hp, h2, hl⟩
      · simp only [Function.update_of_ne hn] at h
        exact hc.imaginary m' hm' l' h
    | throws e => exact ⟨rfl, hc⟩
    | ub => exact ⟨rfl, hc⟩

/-- `get_complex_permeability` without the fast path. -/
def slowComplex (env : Env) (derive : Material → Asking) (m : Material) (f : ℚ) : M (ℚ × ℚ) :=
  M.bind (complexPoints env derive m) fun points =>
    if points.1.length < 2 then M.lift (.throws .missingData) else
    M.bind (realPart m points.1) fun re =>
    M.bind (imaginaryPart m points.2) fun im =>
    M.pure (complexValue env re im f)

theorem stable_slowComplex (hR : OneOf R) {m : Material} (hm : R m) (f : ℚ) :
    Stable env derive R (slowComplex env derive m f) := by
  unfold slowComplex
  refine stable_bind (stable_complexPoints hR hm) fun p hp => ?_
  refine stable_ite (fun _ => stable_lift _) fun h2 => ?_
  refine stable_bind (stable_realPart hR hm hp h2) fun re _ => ?_
  refine stable_bind (stable_imaginaryPart hR hm hp h2) fun im _ => ?_
  exact stable_pure _

theorem complex_empty (m : Material) (f : ℚ) :
    complexPermeability env derive m f Caches.empty = slowComplex env derive m f Caches.empty := rfl

/-- The answer of the slow path when both curves can be computed. -/
theorem slowComplex_ok (hR : OneOf R) {m : Material} (hm : R m) {p : List (Option ℚ × ℚ) × List (Option ℚ × ℚ)}
    (hp : (complexPoints env derive m Caches.empty).2 = .ok p) (h2 : ¬ p.1.length < 2) {re im : List (ℚ × ℚ)}
    (hre : complexCurve p.1 = .ok re) (him : complexCurve p.2 = .ok im) (f : ℚ) :
    (slowComplex env derive m f Caches.empty).2 = .ok (complexValue env re im f) := by
  unfold slowComplex
  rw [bind_of_ok hp, if_neg h2]
  have hF := (stable_complexPoints (env := env) (derive := derive) hR hm _ (faithful_empty env derive R)).2
  have hr : (realPart m p.1 (complexPoints env derive m Caches.empty).1).2 = .ok re := by
    rw [(stable_realPart hR hm hp h2 _ hF).1]
    unfold realPart
    rw [show Caches.empty.real m.name = none from rfl]
    simp only [hre]
  have hF' := (stable_realPart hR hm hp h2 _ hF).2
  rw [bind_of_ok hr]
  have hi : (imaginaryPart m p.2 (realPart m p.1 (complexPoints env derive m Caches.empty).1).1).2 = .ok im := by
    rw [(stable_imaginaryPart hR hm hp h2 _ hF').1]
    unfold imaginaryPart
    rw [show Caches.empty.imaginary m.name = none from rfl]
    simp only [him]
  rw [bind_of_ok hi]
  rfl

theorem stable_complex (hR : OneOf R) {m : Material} (hm : R m) (f : ℚ) :
    Stable env derive R (complexPermeability env derive m f) := by
  intro c hc
  rw [complex_empty]
  unfold complexPermeability
  split
  · rename_i re im hre him
    obtain ⟨p, hp, h2, h3⟩ := hc.real m hm re hre
    obtain ⟨p', hp', _, h5⟩ := hc.imaginary m hm im him
    rw [hp, Res.ok.injEq] at hp'
    subst hp'
    rw [slowComplex_ok hR hm hp h2 h3 h5]
    exact ⟨rfl, hc⟩
  · exact stable_slowComplex hR hm f c hc

theorem stable_resistance (hR : OneOf R) {m : Material} (hm : R m) (f t l : ℚ) :
    Stable env derive R (seriesResistance env m f t l) := by
  unfold seriesResistance
  refine stable_bind (stable_initial hR hm _ _ _ _) fun _ _ => ?_
  refine stable_bind (stable_loss hR hm _) fun _ _ => ?_
  exact stable_ite (fun _ => stable_lift _) fun _ => stable_pure _

theorem stable_call (hR : OneOf R) (k : Call) (hk : R k.material) : Stable env derive R (k.run env derive) := by
  cases k with
  | initial m t h f b => exact stable_bind (stable_initial hR hk _ _ _ _) fun _ _ => stable_pure _
  | complex m f => exact stable_complex hR hk f
  | resistance m f t l => exact stable_bind (stable_resistance hR hk _ _ _) fun _ _ => stable_pure _

theorem faithful_after (hR : OneOf R) : ∀ (l : List Call) (c : Caches), (∀ k ∈ l, R k.material) →
    Faithful env derive R c → Faithful env derive R (after env derive l c)
  | [], _, _, h => h
  | k :: rest, c, hl, h =>
    faithful_after hR rest _ (fun k' hk' => hl k' (List.mem_cons_of_mem _ hk'))
      (stable_call hR k (hl k List.mem_cons_self) c h).2

end

end Verif.Permeability
