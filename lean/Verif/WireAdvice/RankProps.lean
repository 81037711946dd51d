import Verif.WireAdvice.ShareProps

/-! # Who is advised, in which order

Theorems of C287 and C288. -/

set_option linter.unusedSectionVars false

namespace Verif.WireAdvice

open Verif.Scoring (Num)

variable {K : Type} [Field K] [LinearOrder K] [IsStrictOrderedRing K]

/-! ## The filters one by one -/

theorem cartesian_or (o : Option Coord) : (o = none ∨ o = some .cartesian) ↔ o ≠ some .polar := by
  rcases o with _ | _ | _ <;> simp

theorem alone_of {cfg : Config K} {e : Env K} {sec : Section K} {turns : ℤ} {c : Cand K} (h : Answers (noParallels cfg e sec turns) c) :
    (passes (noParallels cfg e sec turns) c = true ↔ Alone cfg e sec turns c) := by
  unfold Answers at h
  unfold passes Alone
  by_cases hf : c.wire.type = .foil ∧ cfg.maxParallels < c.parallels * turns
  · have hn : noParallels cfg e sec turns c = .ok none := by unfold noParallels; rw [if_pos hf]
    rw [hn]
    simp only [Bool.false_eq_true, false_iff, not_and]
    exact fun h1 => absurd (h1 hf.1) (not_le.mpr hf.2)
  · have hf' : c.wire.type = .foil → c.parallels * turns ≤ cfg.maxParallels := fun h1 => not_lt.mp fun h2 => hf ⟨h1, h2⟩
    have hn : noParallels cfg e sec turns c = (orThrow (maxWidth c.wire)).bind fun w => (orThrow (maxHeight c.wire)).bind fun h =>
        if sec.coord = none ∨ sec.coord = some .cartesian then
          if w < sec.first ∧ h < sec.second then .ok (some (.fin 0)) else .ok none
        else if w < sec.first ∧ e.angle h w < sec.second then .ok (some (.fin 0)) else .ok none := by
      unfold noParallels; rw [if_neg hf]
    rw [hn] at h ⊢
    unfold Sizes
    cases hw : maxWidth c.wire with
    | none => rw [hw] at h; simp [orThrow, Res.bind] at h
    | some w =>
      cases hh : maxHeight c.wire with
      | none => rw [hw, hh] at h; simp [orThrow, Res.bind] at h
      | some y =>
        simp only [orThrow, ok_bind]
        by_cases hc : sec.coord = none ∨ sec.coord = some .cartesian
        · have hc' := (cartesian_or _).mp hc
          rw [if_pos hc]
          by_cases h1 : w < sec.first ∧ y < sec.second
          · rw [if_pos h1]
            exact iff_of_true rfl ⟨hf', w, y, ⟨rfl, rfl⟩, h1.1, fun _ => h1.2, fun h2 => absurd h2 hc'⟩
          · rw [if_neg h1]
            refine iff_of_false (by simp) ?_
            rintro ⟨_, w', y', ⟨e1, e2⟩, h2, h3, _⟩
            simp only [Option.some.injEq] at e1 e2
            subst e1; subst e2
            exact h1 ⟨h2, h3 hc'⟩
        · have hc' : sec.coord = some .polar := by
            by_contra hn'
            exact hc ((cartesian_or _).mpr hn')
          rw [if_neg hc]
          by_cases h1 : w < sec.first ∧ e.angle y w < sec.second
          · rw [if_pos h1]
            exact iff_of_true rfl ⟨hf', w, y, ⟨rfl, rfl⟩, h1.1, fun h2 => absurd hc' h2, fun _ => h1.2⟩
          · rw [if_neg h1]
            refine iff_of_false (by simp) ?_
            rintro ⟨_, w', y', ⟨e1, e2⟩, h2, _, h3⟩
            simp only [Option.some.injEq] at e1 e2
            subst e1; subst e2
            exact h1 ⟨h2, h3 hc'⟩

theorem alone_raw {cfg : Config K} {e : Env K} {sec : Section K} {turns : ℤ} (c : Cand K) : raw (noParallels cfg e sec turns) c = 0 := by
  unfold raw
  have : ∀ v, noParallels cfg e sec turns c = .ok (some (.fin v)) → v = 0 := by
    intro v hv
    unfold noParallels at hv
    by_cases hf : c.wire.type = .foil ∧ cfg.maxParallels < c.parallels * turns
    · rw [if_pos hf] at hv; simp at hv
    · rw [if_neg hf] at hv
      obtain ⟨w, _, hv⟩ := bind_ok.mp hv
      obtain ⟨y, _, hv⟩ := bind_ok.mp hv
      by_cases h1 : sec.coord = none ∨ sec.coord = some .cartesian
      · rw [if_pos h1] at hv
        by_cases h2 : w < sec.first ∧ y < sec.second
        · rw [if_pos h2] at hv; simpa using hv.symm
        · rw [if_neg h2] at hv; simp at hv
      · rw [if_neg h1] at hv
        by_cases h2 : w < sec.first ∧ e.angle y w < sec.second
        · rw [if_pos h2] at hv; simpa using hv.symm
        · rw [if_neg h2] at hv; simp at hv
  cases h : noParallels cfg e sec turns c with
  | throws => rfl
  | ub => rfl
  | ok o =>
    rcases o with _ | (x | _ | _ | _)
    · rfl
    · exact this x h
    · rfl
    · rfl
    · rfl

theorem insulation_of {e : Env K} {c : Cand K} (h : Answers (insulation e) c) :
    (passes (insulation e) c = true ↔ e.insulated c.wire = some true) := by
  unfold Answers at h
  unfold passes
  unfold insulation at h ⊢
  cases hi : e.insulated c.wire with
  | none => rw [hi] at h; simp [orThrow, Res.bind] at h
  | some b => cases b <;> simp [orThrow]

theorem insulation_raw (e : Env K) (c : Cand K) : raw (insulation e) c = 0 := by
  unfold raw insulation
  cases e.insulated c.wire with
  | none => rfl
  | some b => cases b <;> rfl

theorem part_of {e : Env K} {sec : Section K} {q : Asked} (hq : q.sections ≠ 0) (hs : Sound e sec) {c : Cand K} {w h : K}
    (hw : Sizes c.wire w h) (p : K) : Part e sec q c p ↔ p = neededArea q c w h / sectionArea e.pi sec := by
  have hA : sectionArea e.pi sec ≠ 0 := ne_of_gt hs
  have hn : (q.sections : K) ≠ 0 := Nat.cast_ne_zero.mpr hq
  unfold Part neededArea
  constructor
  · rintro ⟨w', h', ⟨e1, e2⟩, h3⟩
    rw [hw.1] at e1; rw [hw.2] at e2
    simp only [Option.some.injEq] at e1 e2
    subst e1; subst e2
    rw [eq_div_iff hA]
    push_cast
    field_simp
    rw [h3]
  · rintro rfl
    refine ⟨w, h, hw, ?_⟩
    push_cast
    field_simp

theorem fit_iff {e : Env K} {sec : Section K} {q : Asked} (hq : q.sections ≠ 0) (hs : Sound e sec) {c : Cand K} {w h : K}
    (hw : Sizes c.wire w h) : neededArea q c w h < sectionArea e.pi sec ↔ Fits e sec q c := by
  have hs' : 0 < sectionArea e.pi sec := hs
  constructor
  · intro h1
    exact ⟨_, (part_of hq hs hw _).mpr rfl, (div_lt_one hs').mpr h1⟩
  · rintro ⟨p, h1, h2⟩
    rw [(part_of hq hs hw p).mp h1] at h2
    exact (div_lt_one hs').mp h2

theorem withParallels_eq {e : Env K} {sec : Section K} {q : Asked} (hq : q.sections ≠ 0) {allow : Bool} {c : Cand K} {w h : K}
    (hw : Sizes c.wire w h) (ha : c.wire.hasArea = true) : withParallels e sec q allow c =
      if neededArea q c w h < sectionArea e.pi sec then .ok (some (.fin 1))
      else if allow ∧ sectionArea e.pi sec ≠ 0 ∧ (neededArea q c w h - sectionArea e.pi sec) / sectionArea e.pi sec < 1 / 2 then
        .ok (some (.fin (1 - (neededArea q c w h - sectionArea e.pi sec) / sectionArea e.pi sec)))
      else .ok none := by
  unfold withParallels
  rw [if_neg (by simp [ha]), hw.1, hw.2]
  simp only [orThrow, ok_bind]
  rw [if_neg hq]

theorem withParallels_sizes {e : Env K} {sec : Section K} {q : Asked} {allow : Bool} {c : Cand K} (h : Answers (withParallels e sec q allow) c) :
    c.wire.hasArea = true ∧ ∃ w y, Sizes c.wire w y := by
  unfold Answers withParallels at h
  by_cases ha : c.wire.hasArea = false
  · rw [if_pos ha] at h; simp at h
  · rw [if_neg ha] at h
    refine ⟨by simpa using ha, ?_⟩
    unfold Sizes
    cases hw : maxWidth c.wire with
    | none => rw [hw] at h; simp [orThrow, Res.bind] at h
    | some w => cases hh : maxHeight c.wire with
      | none => rw [hw, hh] at h; simp [orThrow, Res.bind] at h
      | some y => exact ⟨w, y, rfl, rfl⟩

theorem fits_of {e : Env K} {sec : Section K} {q : Asked} (hq : q.sections ≠ 0) (hs : Sound e sec) {c : Cand K}
    (h : Answers (withParallels e sec q false) c) : passes (withParallels e sec q false) c = true ↔ Fits e sec q c := by
  obtain ⟨ha, w, y, hw⟩ := withParallels_sizes h
  unfold passes
  rw [withParallels_eq hq hw ha, ← fit_iff hq hs hw]
  split_ifs <;> simp_all

theorem fits_raw {e : Env K} {sec : Section K} {q : Asked} {c : Cand K} (h : passes (withParallels e sec q false) c = true) :
    raw (withParallels e sec q false) c = 1 := by
  unfold passes at h
  unfold raw
  have : ∀ v, withParallels e sec q false c = .ok (some v) → v = .fin 1 := by
    intro v hv
    unfold withParallels at hv
    by_cases h0 : c.wire.hasArea = false
    · rw [if_pos h0] at hv; simp at hv
    · rw [if_neg h0] at hv
      obtain ⟨w, _, hv⟩ := bind_ok.mp hv
      obtain ⟨y, _, hv⟩ := bind_ok.mp hv
      by_cases h1 : q.sections = 0
      · rw [if_pos h1] at hv; simp at hv
      · rw [if_neg h1] at hv
        by_cases h2 : neededArea q c w y < sectionArea e.pi sec
        · rw [if_pos h2] at hv; simpa using hv.symm
        · rw [if_neg h2, if_neg (by simp)] at hv; simp at hv
  cases h1 : withParallels e sec q false c with
  | throws => rw [h1] at h; simp at h
  | ub => rw [h1] at h; simp at h
  | ok o =>
    cases o with
    | none => rw [h1] at h; simp at h
    | some v => rw [this v h1]

theorem almost_of {e : Env K} {sec : Section K} {q : Asked} (hq : q.sections ≠ 0) (hs : Sound e sec) {c : Cand K}
    (h : Answers (withParallels e sec q true) c) : passes (withParallels e sec q true) c = true ↔ Almost e sec q c := by
  obtain ⟨ha, w, y, hw⟩ := withParallels_sizes h
  have hs' : 0 < sectionArea e.pi sec := hs
  have h2 : (Almost e sec q c) ↔ neededArea q c w y / sectionArea e.pi sec < 3 / 2 := by
    constructor
    · rintro ⟨p, h1, h2⟩
      rwa [(part_of hq hs hw p).mp h1] at h2
    · intro h1
      exact ⟨_, (part_of hq hs hw _).mpr rfl, h1⟩
  have h3 : (neededArea q c w y - sectionArea e.pi sec) / sectionArea e.pi sec < 1 / 2 ↔ neededArea q c w y / sectionArea e.pi sec < 3 / 2 := by
    rw [sub_div, div_self hs'.ne']
    constructor <;> intro <;> linarith
  unfold passes
  rw [withParallels_eq hq hw ha, h2]
  by_cases h4 : neededArea q c w y < sectionArea e.pi sec
  · rw [if_pos h4]
    have := (div_lt_one hs').mpr h4
    exact iff_of_true rfl (by linarith)
  · rw [if_neg h4]
    by_cases h5 : neededArea q c w y / sectionArea e.pi sec < 3 / 2
    · rw [if_pos ⟨rfl, hs'.ne', h3.mpr h5⟩]
      exact iff_of_true rfl h5
    · rw [if_neg (fun h6 => h5 (h3.mp h6.2.2))]
      exact iff_of_false (by simp) h5

theorem almost_raw {e : Env K} {sec : Section K} {q : Asked} (hq : q.sections ≠ 0) (hs : Sound e sec) {c : Cand K}
    (h : Answers (withParallels e sec q true) c) (hp : passes (withParallels e sec q true) c = true) (hn : ¬ Fits e sec q c) {p : K}
    (hpart : Part e sec q c p) : raw (withParallels e sec q true) c = 2 - p := by
  obtain ⟨ha, w, y, hw⟩ := withParallels_sizes h
  have hs' : 0 < sectionArea e.pi sec := hs
  have hpe := (part_of hq hs hw p).mp hpart
  unfold passes at hp
  unfold raw
  have h4 : ¬ neededArea q c w y < sectionArea e.pi sec := fun h4 => hn ((fit_iff hq hs hw).mp h4)
  rw [withParallels_eq hq hw ha, if_neg h4] at hp ⊢
  split_ifs at hp ⊢ with h5
  · simp only
    rw [hpe, sub_div, div_self hs'.ne']
    ring

/-! ## The score of a candidate -/

theorem step_score {invert : Bool} {eval : Cand K → Res (Option (Num K))} {l out : List (Cand K × K)} (h : step invert eval l = .ok out)
    {σ : Cand K → K} (hσ : ∀ x ∈ l, x.2 = σ x.1) :
    ∀ x ∈ out, x.2 = σ x.1 + normal invert ((out.map Prod.fst).map (raw eval)) (raw eval x.1) := by
  intro x hx
  have hp := step_cands h
  obtain ⟨ha, he⟩ := (step_eq invert eval l out).mp h
  have hx' : x ∈ added invert eval l := (sorted_perm _).mem_iff.mp (he ▸ hx)
  unfold added at hx'
  obtain ⟨y, hy, rfl⟩ := List.mem_map.mp hx'
  simp only
  rw [hσ y (List.mem_filter.mp hy).1]
  congr 1
  refine normal_congr invert (fun v => ?_) (List.mem_map_of_mem (f := fun c : Cand K × K => raw eval c.1) hy)
  have h1 : ((l.filter fun c => passes eval c.1).map fun c => raw eval c.1) = ((l.map Prod.fst).filter (passes eval)).map (raw eval) := by
    rw [List.filter_map, List.map_map]; rfl
  rw [h1]
  exact ((hp.map (raw eval)).mem_iff).symm

theorem normal_const {invert : Bool} {vs : List K} {v : K} (hv : v ∈ vs) (hc : ∀ x ∈ vs, x = v) : normal invert vs v = 1 := by
  obtain ⟨a, ha, b, hb, _, e, _⟩ := normal_share invert hv
  exact e ((hc a ha).trans (hc b hb).symm)

theorem step_const {invert : Bool} {eval : Cand K → Res (Option (Num K))} {l out : List (Cand K × K)} (h : step invert eval l = .ok out)
    {σ : Cand K → K} (hσ : ∀ x ∈ l, x.2 = σ x.1) {v : K} (hv : ∀ x ∈ out, raw eval x.1 = v) : ∀ x ∈ out, x.2 = σ x.1 + 1 := by
  intro x hx
  rw [step_score h hσ x hx]
  congr 1
  refine normal_const (List.mem_map_of_mem (List.mem_map_of_mem hx)) ?_
  intro y hy
  rw [List.map_map] at hy
  obtain ⟨z, hz, rfl⟩ := List.mem_map.mp hy
  exact (hv z hz).trans (hv x hx).symm

/-- The share in the list that is left, as in a permutation of it. -/
theorem step_share {invert : Bool} {eval : Cand K → Res (Option (Num K))} {l out : List (Cand K × K)} (h : step invert eval l = .ok out)
    {σ : Cand K → K} (hσ : ∀ x ∈ l, x.2 = σ x.1) {g : List (Cand K)} (hg : g.Perm (out.map Prod.fst)) :
    ∀ x ∈ out, Share invert (g.map (raw eval)) (raw eval x.1) (x.2 - σ x.1) := by
  intro x hx
  rw [step_score h hσ x hx, add_sub_cancel_left]
  refine share_congr (fun v => ((hg.map (raw eval)).mem_iff).symm) (normal_share invert ?_)
  exact List.mem_map_of_mem (List.mem_map_of_mem hx)

theorem all_pass {eval : Cand K → Res (Option (Num K))} (hp : ∀ c, eval c ≠ .ok none) {invert : Bool} {l out : List (Cand K × K)}
    (h : step invert eval l = .ok out) : (out.map Prod.fst).Perm (l.map Prod.fst) := by
  refine (step_cands h).trans ?_
  rw [List.filter_eq_self.mpr]
  intro c hc
  obtain ⟨y, hy, rfl⟩ := List.mem_map.mp hc
  rcases (step_answers h).1 y hy with h1 | ⟨v, h1⟩
  · exact absurd h1 (hp _)
  · simp [passes, h1]

theorem resistance_keeps (e : Env K) (f : K) (c : Cand K) : resistance e f c ≠ .ok none := by
  unfold resistance; cases e.resistance c.wire f <;> simp [orThrow, Res.bind]

theorem skin_keeps (e : Env K) (c : Cand K) : skinLosses e c ≠ .ok none := by
  unfold skinLosses; cases e.skin c.wire <;> simp [orThrow, Res.bind]

theorem proximity_keeps (t : ℤ) (f : K) (c : Cand K) : proximity t f c ≠ .ok none := by
  unfold proximity; cases smallest c.wire <;> simp [orThrow, Res.bind]

theorem resistance_fin {e : Env K} {f : K} {c : Cand K} {v : K} (h : resistance e f c = .ok (some (.fin v))) :
    e.resistance c.wire f = some (.fin v) := by
  unfold resistance at h
  obtain ⟨a, h1, h2⟩ := bind_ok.mp h
  rw [orThrow_ok] at h1
  simp only [Res.ok.injEq, Option.some.injEq] at h2
  rw [h1, h2]

theorem skin_fin {e : Env K} {c : Cand K} {v : K} (h : skinLosses e c = .ok (some (.fin v))) : e.skin c.wire = some (.fin v) := by
  unfold skinLosses at h
  obtain ⟨a, h1, h2⟩ := bind_ok.mp h
  rw [orThrow_ok] at h1
  simp only [Res.ok.injEq, Option.some.injEq] at h2
  rw [h1, h2]

theorem proximity_fin {t : ℤ} {f : K} {c : Cand K} {v : K} (h : proximity t f c = .ok (some (.fin v))) :
    ∃ d, smallest c.wire = some d ∧ f ≠ 0 ∧ v * f = d * ((c.wire.conductors.getD 1 : ℕ) * c.parallels * t) ^ 2 := by
  unfold proximity at h
  obtain ⟨d, h1, h2⟩ := bind_ok.mp h
  rw [orThrow_ok] at h1
  simp only [Res.ok.injEq, Option.some.injEq] at h2
  refine ⟨d, h1, ?_⟩
  unfold divide at h2
  by_cases hf : f = 0
  · rw [if_pos hf] at h2
    split_ifs at h2 <;> simp only [timesSquare] at h2 <;> (try split_ifs at h2) <;> simp at h2
  · rw [if_neg hf] at h2
    simp only [timesSquare, Num.fin.injEq] at h2
    refine ⟨hf, ?_⟩
    rw [← h2]
    push_cast
    field_simp

end Verif.WireAdvice
