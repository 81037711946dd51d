import Verif.WindingLosses.Model
import Mathlib.Tactic.Ring
import Mathlib.Tactic.FieldSimp
import Mathlib.Tactic.Linarith
import Mathlib.Tactic.Positivity
import Mathlib.Algebra.Order.BigOperators.Group.List
import Mathlib.Algebra.BigOperators.Ring.List

/-! # Lemmas: sequencing, currents of parallels, ohmic losses -/

set_option linter.unusedSimpArgs false

namespace Verif.WindingLosses

theorem Res.bind_ok {α β : Type} {r : Res α} {f : α → Res β} {b : β} (h : r.bind f = .ok b) :
    ∃ a : α, r = .ok a ∧ f a = .ok b := by
  cases r with
  | ok a => exact ⟨a, rfl, h⟩
  | throws e => simp [Res.bind] at h
  | ub => simp [Res.bind] at h

theorem Res.mapM_ok {α β : Type} {f : α → Res β} {l : List α} {r : List β} (h : Res.mapM f l = .ok r) :
    List.Forall₂ (fun a b => f a = .ok b) l r := by
  induction l generalizing r with
  | nil => simp only [Res.mapM, Res.ok.injEq] at h; subst h; exact .nil
  | cons a l ih =>
    obtain ⟨b, hb, h⟩ := Res.bind_ok h
    obtain ⟨bs, hbs, h⟩ := Res.bind_ok h
    simp only [Res.ok.injEq] at h; subst h
    exact .cons hb (ih hbs)

theorem forall₂_get {α β : Type} {R : α → β → Prop} {l : List α} {r : List β} (h : List.Forall₂ R l r) (i : Nat) {a : α}
    (ha : l[i]? = some a) : ∃ b : β, r[i]? = some b ∧ R a b := by
  induction h generalizing i with
  | nil => simp at ha
  | cons hab _ ih =>
    cases i with
    | zero => simp only [List.getElem?_cons_zero, Option.some.injEq] at ha; subst ha; exact ⟨_, rfl, hab⟩
    | succ i => simp only [List.getElem?_cons_succ] at ha ⊢; exact ih i ha

theorem M.bind_ok {S α β : Type} {m : M S α} {f : α → M S β} {s s' : S} {b : β} (h : M.bind m f s = (s', .ok b)) :
    ∃ (a : α) (s₁ : S), m s = (s₁, .ok a) ∧ f a s₁ = (s', .ok b) := by
  unfold M.bind at h
  generalize m s = x at h ⊢
  obtain ⟨s₁, r⟩ := x
  cases r with
  | ok a => exact ⟨a, s₁, rfl, h⟩
  | throws e => simp at h
  | ub => simp at h

theorem M.lift_ok {S α : Type} {r : Res α} {s s' : S} {a : α} (h : M.lift r s = (s', .ok a)) : r = .ok a ∧ s = s' := by
  simp only [M.lift, Prod.mk.injEq] at h; exact ⟨h.2, h.1⟩

theorem M.pure_ok {S α : Type} {x : α} {s s' : S} {a : α} (h : (M.pure x : M S α) s = (s', .ok a)) : x = a ∧ s = s' := by
  simp only [M.pure, Prod.mk.injEq, Res.ok.injEq] at h; exact ⟨h.2, h.1⟩

theorem M.mapM_length {S α β : Type} {f : α → M S β} {l : List α} {s s' : S} {r : List β}
    (h : M.mapM f l s = (s', .ok r)) : r.length = l.length := by
  induction l generalizing s s' r with
  | nil => obtain ⟨h, _⟩ := M.pure_ok h; subst h; rfl
  | cons a l ih =>
    obtain ⟨b, s₁, _, h⟩ := M.bind_ok h
    obtain ⟨bs, s₂, hbs, h⟩ := M.bind_ok h
    obtain ⟨h, _⟩ := M.pure_ok h
    subst h; simp [ih hbs]

/-! ## Parallels -/

theorem inverse_sum_pos : ∀ (rs : List ℚ), rs ≠ [] → (∀ r ∈ rs, 0 < r) → 0 < (rs.map fun r => 1 / r).sum
  | [], h, _ => absurd rfl h
  | [r], _, hp => by have := hp r (by simp); simp; exact this
  | r :: r' :: rs, _, hp => by
    have h1 := inverse_sum_pos (r' :: rs) (by simp) fun x hx => hp x (by simp at hx ⊢; tauto)
    have h2 : 0 < 1 / r := by have := hp r (by simp); positivity
    rw [List.map_cons, List.sum_cons]; linarith

theorem map_div_sum (k : ℚ) : ∀ rs : List ℚ, (rs.map fun s => k / s).sum = k * (rs.map fun r => 1 / r).sum
  | [] => by simp
  | r :: rs => by rw [List.map_cons, List.sum_cons, map_div_sum k rs, List.map_cons, List.sum_cons]; ring

theorem parallelCurrents_eq {i : ℚ} {rs : List ℚ} (h : rs ≠ []) :
    parallelCurrents i rs = rs.map fun s => i * (1 / (rs.map fun r => 1 / r).sum) / s := by
  simp [parallelCurrents, together, h]

theorem parallelCurrents_length (i : ℚ) (rs : List ℚ) : (parallelCurrents i rs).length = rs.length := by
  by_cases h : rs = []
  · subst h; rfl
  · rw [parallelCurrents_eq h, List.length_map]

theorem parallelCurrents_sum {i : ℚ} {rs : List ℚ} (h : rs ≠ []) (hp : ∀ r ∈ rs, 0 < r) :
    (parallelCurrents i rs).sum = i := by
  have := inverse_sum_pos rs h hp
  rw [parallelCurrents_eq h, map_div_sum]; field_simp

theorem square_sum (k : ℚ) : ∀ rs : List ℚ, (∀ r ∈ rs, 0 < r) →
    ((rs.zip (rs.map fun s => k / s)).map fun y => y.1 * (y.2 * y.2)).sum = k * k * (rs.map fun r => 1 / r).sum
  | [], _ => by simp
  | r :: rs, hp => by
    have hr := hp r (by simp)
    have ih := square_sum k rs fun x hx => hp x (by simp [hx])
    rw [List.map_cons, List.zip_cons_cons, List.map_cons, List.sum_cons, ih, List.map_cons, List.sum_cons]
    field_simp

theorem parallel_losses {i : ℚ} {rs : List ℚ} (h : rs ≠ []) (hp : ∀ r ∈ rs, 0 < r) :
    ((rs.zip (parallelCurrents i rs)).map fun y => y.1 * (y.2 * y.2)).sum = i * i * (1 / (rs.map fun r => 1 / r).sum) := by
  have := inverse_sum_pos rs h hp
  rw [parallelCurrents_eq h, square_sum _ rs hp]; field_simp

theorem one_div_le_sum : ∀ (rs : List ℚ), (∀ r ∈ rs, 0 < r) → ∀ r ∈ rs, 1 / r ≤ (rs.map fun r => 1 / r).sum
  | [], _, r, hr => by simp at hr
  | a :: rs, hp, r, hr => by
    have hnn : 0 ≤ (rs.map fun r => 1 / r).sum := by
      apply List.sum_nonneg; intro x hx; obtain ⟨y, hy, rfl⟩ := List.mem_map.1 hx
      have := hp y (by simp [hy]); positivity
    have ha : 0 < 1 / a := by have := hp a (by simp); positivity
    rw [List.map_cons, List.sum_cons]
    rcases List.mem_cons.1 hr with rfl | hr
    · linarith
    · have := one_div_le_sum rs (fun x hx => hp x (by simp [hx])) r hr; linarith

/-! ## Ohmic losses, taken apart -/

theorem seriesOf_ok {bs : List Branch} {cs : List (List ℚ)} {w : Nat} {x : Winding} {l : List ℚ}
    (h : seriesOf bs cs w x = .ok l) :
    l = (List.range x.parallels).map (series bs cs w) ∧ ∀ r ∈ l, 0 < r := by
  have := Res.mapM_ok h
  clear h
  generalize List.range x.parallels = ps at this ⊢
  induction this with
  | nil => simp
  | cons hp _ ih =>
    obtain ⟨ih1, ih2⟩ := ih
    split at hp
    · rename_i hpos
      simp only [Res.ok.injEq] at hp; subst hp
      refine ⟨by rw [List.map_cons, ← ih1], ?_⟩
      intro r hr
      rcases List.mem_cons.1 hr with rfl | hr
      · exact hpos
      · exact ih2 r hr
    · simp at hp

theorem seriesFrom_ok {bs : List Branch} {cs : List (List ℚ)} {ws : List Winding} {w : Nat} {ss : List (List ℚ)}
    (h : seriesFrom bs cs w ws = .ok ss) :
    ss.length = ws.length ∧ ∀ (i : Nat) (x : Winding), ws[i]? = some x → ∃ l : List ℚ, ss[i]? = some l ∧
      l = (List.range x.parallels).map (series bs cs (w + i)) ∧ ∀ r ∈ l, 0 < r := by
  induction ws generalizing w ss with
  | nil => simp only [seriesFrom, Res.ok.injEq] at h; subst h; simp
  | cons x ws ih =>
    obtain ⟨l, hl, h⟩ := Res.bind_ok h
    obtain ⟨ls, hls, h⟩ := Res.bind_ok h
    simp only [Res.ok.injEq] at h; subst h
    obtain ⟨ih1, ih2⟩ := ih hls
    refine ⟨by simp [ih1], ?_⟩
    intro i y hy
    cases i with
    | zero =>
      simp only [List.getElem?_cons_zero, Option.some.injEq] at hy; subst hy
      exact ⟨l, rfl, seriesOf_ok hl⟩
    | succ i =>
      simp only [List.getElem?_cons_succ] at hy ⊢
      obtain ⟨l', h1, h2⟩ := ih2 i y hy
      exact ⟨l', h1, by rw [show w + (i + 1) = w + 1 + i by omega]; exact h2⟩

/-- What `ohmic` computed. -/
structure Parts (resistance : Wire → ℚ) (real : Bool) (c : Coil) (excitations : List (Option Current)) (o : Output) where
  turns : List Turn
  rms : List ℚ
  bs : List Branch
  lengths : List (List ℚ)
  cs : List (List ℚ)
  ss : List (List ℚ)
  hturns : c.turns = some turns
  hrms : Res.mapM (rmsOf excitations) (List.range c.windings.length) = .ok rms
  hbs : Res.mapM (branchOf resistance c.windings) turns = .ok bs
  hlengths : connectionLengths real c = .ok lengths
  hcs : connectionResistances resistance c.windings lengths = .ok cs
  hss : seriesFrom bs cs 0 c.windings = .ok ss
  hout : o = { total := (((ss.zip ((rms.zip ss).map fun x => parallelCurrents x.1 x.2)).map fun x =>
                  ((x.1.zip x.2).map fun y => y.1 * (y.2 * y.2)).sum)).sum,
               perTurn := bs.map fun b => ⟨some ((currentAt ((rms.zip ss).map fun x => parallelCurrents x.1 x.2) b) *
                  (currentAt ((rms.zip ss).map fun x => parallelCurrents x.1 x.2) b) * b.resistance), none, none⟩,
               perWinding := ((ss.zip ((rms.zip ss).map fun x => parallelCurrents x.1 x.2)).map fun x =>
                  ((x.1.zip x.2).map fun y => y.1 * (y.2 * y.2)).sum).map fun l => ⟨some l, none, none⟩,
               perSection := [], perLayer := [], resistances := ss.map together,
               dividers := bs.map fun b => if rms[b.winding]?.getD 0 = 0 then 0 else
                  currentAt ((rms.zip ss).map fun x => parallelCurrents x.1 x.2) b / rms[b.winding]?.getD 0 }

theorem ohmic_ok {resistance : Wire → ℚ} {real : Bool} {c : Coil} {excitations : List (Option Current)} {o : Output}
    (h : ohmic resistance real c excitations = .ok o) : Nonempty (Parts resistance real c excitations o) := by
  unfold ohmic at h
  cases ht : c.turns with
  | none => simp [ht] at h
  | some turns =>
    simp only [ht] at h
    obtain ⟨rms, h1, h⟩ := Res.bind_ok h
    obtain ⟨bs, h2, h⟩ := Res.bind_ok h
    obtain ⟨lengths, h3, h⟩ := Res.bind_ok h
    obtain ⟨cs, h4, h⟩ := Res.bind_ok h
    obtain ⟨ss, h5, h⟩ := Res.bind_ok h
    simp only [Res.ok.injEq] at h
    exact ⟨⟨turns, rms, bs, lengths, cs, ss, ht, h1, h2, h3, h4, h5, h.symm⟩⟩

end Verif.WindingLosses
