import Verif.WireAdvice.RankProps

/-! # The advice: who, in which order, with what score

Theorems of C287 and C288. -/

set_option linter.unusedSectionVars false

namespace Verif.WireAdvice

open Verif.Scoring (Num)

variable {K : Type} [Field K] [LinearOrder K] [IsStrictOrderedRing K]

open Classical in
theorem filter_passes {eval : Cand K → Res (Option (Num K))} {P : Cand K → Prop} {l : List (Cand K)}
    (h : ∀ c ∈ l, (passes eval c = true ↔ P c)) : l.filter (passes eval) = l.filter (fun c => decide (P c)) :=
  List.filter_congr fun c hc => by
    rw [Bool.eq_iff_iff, h c hc]; simp

theorem share_flip {vs : List K} {v s : K} {g : List (Cand K)} {u w : Cand K → K} (hu : ∀ c ∈ g, u c = 2 - w c) {c : Cand K} (hc : c ∈ g)
    (h : Share false (g.map u) (u c) s) : Share true (g.map w) (w c) s := by
  obtain ⟨a, ha, b, hb, hab, e, f⟩ := h
  obtain ⟨x, hx, rfl⟩ := List.mem_map.mp ha
  obtain ⟨y, hy, rfl⟩ := List.mem_map.mp hb
  refine ⟨w y, List.mem_map_of_mem hy, w x, List.mem_map_of_mem hx, ?_, ?_, ?_⟩
  · intro z hz
    obtain ⟨t, ht, rfl⟩ := List.mem_map.mp hz
    have := hab _ (List.mem_map_of_mem ht)
    rw [hu t ht, hu x hx, hu y hy] at this
    constructor <;> linarith [this.1, this.2]
  · intro h1
    exact e (by rw [hu x hx, hu y hy, h1])
  · intro h1
    have := f (by rw [hu x hx, hu y hy]; linarith)
    rw [hu x hx, hu y hy, hu c hc] at this
    simp only [Bool.false_eq_true, if_false, if_true] at this ⊢
    linarith

/-- The part of the section a candidate takes. -/
def partOf (e : Env K) (sec : Section K) (q : Asked) (c : Cand K) : K :=
  match maxWidth c.wire, maxHeight c.wire with
  | some w, some h => neededArea q c w h / sectionArea e.pi sec
  | _, _ => 0

theorem partOf_spec {e : Env K} {sec : Section K} {q : Asked} (hq : q.sections ≠ 0) (hs : Sound e sec) {c : Cand K} {w h : K}
    (hw : Sizes c.wire w h) : Part e sec q c (partOf e sec q c) := by
  rw [part_of hq hs hw]
  unfold partOf
  rw [hw.1, hw.2]

open Classical in
theorem fitting_spec {e : Env K} {sec : Section K} {q : Asked} (hq : q.sections ≠ 0) (hs : Sound e sec) {l out : List (Cand K × K)}
    (h : fitting e sec q l = .ok out) {σ : Cand K → K} (hσ : ∀ x ∈ l, x.2 = σ x.1) :
    (∀ x ∈ l, ∃ w y, Sizes x.1.wire w y) ∧ (∀ x ∈ l, x.1.wire.hasArea = true) ∧
    (((∃ x ∈ l, Fits e sec q x.1) → (out.map Prod.fst).Perm ((l.map Prod.fst).filter fun c => decide (Fits e sec q c)) ∧
      ∀ x ∈ out, x.2 = σ x.1 + 1)) ∧
    ((¬ (∃ x ∈ l, Fits e sec q x.1)) → (out.map Prod.fst).Perm ((l.map Prod.fst).filter fun c => decide (Almost e sec q c)) ∧
      ∃ τ : Cand K → K, ∀ x ∈ out, x.2 = σ x.1 + τ x.1 ∧
        ∀ g : List (Cand K), g.Perm (out.map Prod.fst) → Share true (g.map (partOf e sec q)) (partOf e sec q x.1) (τ x.1)) := by
  unfold fitting at h
  obtain ⟨fit, h1, h2⟩ := bind_ok.mp h
  have ha := (step_answers h1).1
  have hsz : ∀ x ∈ l, ∃ w y, Sizes x.1.wire w y := fun x hx => (withParallels_sizes (ha x hx)).2
  have hfit : (fit.map Prod.fst).Perm ((l.map Prod.fst).filter fun c => decide (Fits e sec q c)) := by
    have := step_cands h1
    rwa [filter_passes (P := Fits e sec q)] at this
    intro c hc
    obtain ⟨x, hx, rfl⟩ := List.mem_map.mp hc
    exact fits_of hq hs (ha x hx)
  refine ⟨hsz, fun x hx => (withParallels_sizes (ha x hx)).1, ?_, ?_⟩
  · rintro ⟨x, hx, hxf⟩
    have hne : fit.length ≠ 0 := by
      have : x.1 ∈ fit.map Prod.fst := hfit.mem_iff.mpr (List.mem_filter.mpr ⟨List.mem_map_of_mem hx, by simpa using hxf⟩)
      have := List.length_pos_of_mem this
      rw [List.length_map] at this
      omega
    rw [if_neg hne] at h2
    simp only [Res.ok.injEq] at h2
    subst h2
    refine ⟨hfit, step_const h1 hσ (v := 1) ?_⟩
    intro y hy
    apply fits_raw
    have := (step_answers h1).2 y hy
    simp [passes, this]
  · intro hn
    have he : fit.length = 0 := by
      by_contra hne
      obtain ⟨y, hy⟩ := List.exists_mem_of_length_pos (Nat.pos_of_ne_zero hne)
      have h3 := hfit.mem_iff.mp (List.mem_map_of_mem hy)
      obtain ⟨h4, h5⟩ := List.mem_filter.mp h3
      obtain ⟨z, hz, hzy⟩ := List.mem_map.mp h4
      exact hn ⟨z, hz, by rw [hzy]; simpa using h5⟩
    rw [if_pos he] at h2
    have ha2 := (step_answers h2).1
    have hperm : (out.map Prod.fst).Perm ((l.map Prod.fst).filter fun c => decide (Almost e sec q c)) := by
      have := step_cands h2
      rwa [filter_passes (P := Almost e sec q)] at this
      intro c hc
      obtain ⟨x, hx, rfl⟩ := List.mem_map.mp hc
      exact almost_of hq hs (ha2 x hx)
    refine ⟨hperm, fun c => normal false ((out.map Prod.fst).map (raw (withParallels e sec q true))) (raw (withParallels e sec q true) c), ?_⟩
    intro x hx
    refine ⟨step_score h2 hσ x hx, fun g hg => ?_⟩
    have hsh := step_share h2 hσ hg x hx
    rw [step_score h2 hσ x hx, add_sub_cancel_left] at hsh
    refine share_flip (vs := g.map (partOf e sec q)) (v := 0) ?_ (hg.mem_iff.mpr (List.mem_map_of_mem hx)) hsh
    intro c hc
    obtain ⟨y, hy, rfl⟩ := List.mem_map.mp (hg.mem_iff.mp hc)
    obtain ⟨h3, h4⟩ := List.mem_filter.mp ((step_cands h2).mem_iff.mp (List.mem_map_of_mem hy))
    obtain ⟨z, hz, hzy⟩ := List.mem_map.mp h3
    obtain ⟨w, v, hw⟩ := hsz z hz
    rw [hzy] at hw
    have hnf : ¬ Fits e sec q y.1 := fun hf => hn ⟨z, hz, by rw [hzy]; exact hf⟩
    have hans : Answers (withParallels e sec q true) y.1 := hzy ▸ ha2 z hz
    exact almost_raw hq hs hans h4 hnf (partOf_spec hq hs hw)

theorem scored_spec {e : Env K} {cur : Current K} {turns : ℤ} {l out : List (Cand K × K)} (h : scored e cur turns l = .ok out)
    {σ : Cand K → K} (hσ : ∀ x ∈ l, x.2 = σ x.1) :
    ∃ f, frequencyOf cur = .ok f ∧ (out.map Prod.fst).Perm (l.map Prod.fst) ∧ ∃ res skn prox : Cand K → K,
      (∀ x ∈ out, e.resistance x.1.wire f = some (.fin (res x.1)) ∧
        (cur.harmonics = true → e.skin x.1.wire = some (.fin (skn x.1))) ∧
        ∃ d, smallest x.1.wire = some d ∧ f ≠ 0 ∧ prox x.1 * f = d * ((x.1.wire.conductors.getD 1 : ℕ) * x.1.parallels * turns) ^ 2) ∧
      ∀ x ∈ out, ∃ r k p, Share true ((out.map Prod.fst).map res) (res x.1) r ∧
        (cur.harmonics = true → Share true ((out.map Prod.fst).map skn) (skn x.1) k) ∧ (cur.harmonics = false → k = 0) ∧
        Share true ((out.map Prod.fst).map prox) (prox x.1) p ∧ x.2 = σ x.1 + r + k + p := by
  unfold scored at h
  obtain ⟨f, hf, h⟩ := bind_ok.mp h
  obtain ⟨l₁, h1, h⟩ := bind_ok.mp h
  obtain ⟨l₂, h2, h3⟩ := bind_ok.mp h
  have p1 := all_pass (resistance_keeps e f) h1
  have p3 := all_pass (proximity_keeps turns f) h3
  have p2 : (l₂.map Prod.fst).Perm (l₁.map Prod.fst) := by
    unfold stepIf at h2
    split_ifs at h2
    · exact all_pass (skin_keeps e) h2
    · simp only [Res.ok.injEq] at h2; rw [h2]
  have mem12 : ∀ c, c ∈ out.map Prod.fst → c ∈ l₁.map Prod.fst ∧ c ∈ l₂.map Prod.fst := fun c hc =>
    ⟨(p3.trans p2).mem_iff.mp hc, p3.mem_iff.mp hc⟩
  refine ⟨f, hf, (p3.trans p2).trans p1, raw (resistance e f), raw (skinLosses e), raw (proximity turns f), ?_, ?_⟩
  · intro x hx
    obtain ⟨m1, m2⟩ := mem12 x.1 (List.mem_map_of_mem hx)
    refine ⟨?_, ?_, ?_⟩
    · obtain ⟨y, hy, hyx⟩ := List.mem_map.mp m1
      have := (step_answers h1).2 y hy
      rw [hyx] at this
      exact resistance_fin this
    · intro hh
      unfold stepIf at h2
      rw [if_pos hh] at h2
      obtain ⟨y, hy, hyx⟩ := List.mem_map.mp m2
      have := (step_answers h2).2 y hy
      rw [hyx] at this
      exact skin_fin this
    · exact proximity_fin ((step_answers h3).2 x hx)
  · intro x hx
    set σ₁ : Cand K → K := fun c => σ c + normal true ((l₁.map Prod.fst).map (raw (resistance e f))) (raw (resistance e f) c) with hσ₁
    have s1 : ∀ y ∈ l₁, y.2 = σ₁ y.1 := step_score h1 hσ
    have hr : Share true ((out.map Prod.fst).map (raw (resistance e f))) (raw (resistance e f) x.1) (σ₁ x.1 - σ x.1) := by
      obtain ⟨y, hy, hyx⟩ := List.mem_map.mp (mem12 x.1 (List.mem_map_of_mem hx)).1
      have := step_share h1 hσ (p3.trans p2) y hy
      rw [s1 y hy, hyx] at this
      exact this
    by_cases hh : cur.harmonics = true
    · unfold stepIf at h2
      rw [if_pos hh] at h2
      set σ₂ : Cand K → K := fun c => σ₁ c + normal true ((l₂.map Prod.fst).map (raw (skinLosses e))) (raw (skinLosses e) c) with hσ₂
      have s2 : ∀ y ∈ l₂, y.2 = σ₂ y.1 := step_score h2 s1
      have hk : Share true ((out.map Prod.fst).map (raw (skinLosses e))) (raw (skinLosses e) x.1) (σ₂ x.1 - σ₁ x.1) := by
        obtain ⟨y, hy, hyx⟩ := List.mem_map.mp (mem12 x.1 (List.mem_map_of_mem hx)).2
        have := step_share h2 s1 p3 y hy
        rw [s2 y hy, hyx] at this
        exact this
      refine ⟨_, _, _, hr, fun _ => hk, fun h4 => ?_, step_share h3 s2 (List.Perm.refl _) x hx, by ring⟩
      rw [hh] at h4; simp at h4
    · unfold stepIf at h2
      rw [if_neg hh] at h2
      simp only [Res.ok.injEq] at h2
      subst h2
      exact ⟨_, 0, _, hr, fun h4 => absurd h4 hh, fun _ => rfl, step_share h3 s1 (List.Perm.refl _) x hx, by ring⟩

open Classical in
/-- **C287, C288.** The advice is the beginning of a ranking of all acceptable candidates: each as often as it is in the dataset, with the
score of its measures, in descending order of score and, for equal scores, ascending order of outer size. -/
theorem ranking [FloorRing K] {s : Allowed} {cfg : Config K} {e : Env K} {sec : Section K} {cur : Current K} {q : Asked} {maximum : ℕ}
    {wires : List (Wire K)} {r : List (Cand K × K)} {p : K} (hq : q.sections ≠ 0) (hs : Sound e sec)
    (h : advise s cfg e sec cur q maximum wires = .ok (r, p)) :
    ∃ (d : List (Cand K)) (full : List (Cand K × K)) (f : K) (m : Measures K),
      dataset s cfg e sec cur wires = .ok d ∧ frequencyOf cur = .ok f ∧ r = full.take maximum ∧
      full.Pairwise (fun a b => b.2 < a.2 ∨ (a.2 = b.2 ∧ metricLe (metric a.1) (metric b.1))) ∧
      (full.map Prod.fst).Perm (d.filter fun c => decide (Acceptable cfg e sec q d c)) ∧
      (∀ x ∈ full, Measured e sec q f cur.harmonics m x.1) ∧
      ∀ x ∈ full, Scored cfg.insulation cur.harmonics (decide (SomeFit cfg e sec q d)) m (full.map Prod.fst) x.1 x.2 := by
  unfold advise at h
  obtain ⟨d, hd, h⟩ := bind_ok.mp h
  obtain ⟨l₁, h1, h⟩ := bind_ok.mp h
  obtain ⟨l₂, h2, h⟩ := bind_ok.mp h
  obtain ⟨l₃, h3, h⟩ := bind_ok.mp h
  obtain ⟨l₄, h4, h⟩ := bind_ok.mp h
  unfold finish at h
  obtain ⟨p', hp', h⟩ := bind_ok.mp h
  simp only [Res.ok.injEq, Prod.mk.injEq] at h
  obtain ⟨hr, _⟩ := h
  have c0 : (d.map fun x => ((x, 0) : Cand K × K)).map Prod.fst = d := by simp [List.map_map, Function.comp_def]
  -- the candidates
  have c1 : (l₁.map Prod.fst).Perm (d.filter fun c => decide (Alone cfg e sec q.turns c)) := by
    have := step_cands h1
    rw [c0] at this
    rwa [filter_passes (P := Alone cfg e sec q.turns)] at this
    intro c hc
    exact alone_of ((step_answers h1).1 (c, 0) (List.mem_map.mpr ⟨c, hc, rfl⟩))
  have s1 : ∀ x ∈ l₁, x.2 = (fun _ => (1 : K)) x.1 := by
    intro x hx
    have := step_const h1 (σ := fun _ => 0) (v := 0) (by
      intro y hy
      obtain ⟨c, _, rfl⟩ := List.mem_map.mp hy
      rfl) (fun y _ => alone_raw y.1) x hx
    simpa using this
  have c2 : (l₂.map Prod.fst).Perm ((l₁.map Prod.fst).filter fun c => decide (Insulated cfg e c)) ∧
      ∀ x ∈ l₂, x.2 = (fun _ => (1 : K) + (if cfg.insulation then 1 else 0)) x.1 := by
    unfold stepIf at h2
    by_cases hi : cfg.insulation = true
    · rw [if_pos hi] at h2
      constructor
      · have := step_cands h2
        rwa [filter_passes (P := Insulated cfg e)] at this
        intro c hc
        obtain ⟨x, hx, rfl⟩ := List.mem_map.mp hc
        rw [insulation_of ((step_answers h2).1 x hx)]
        exact ⟨fun h5 _ => h5, fun h5 => h5 hi⟩
      · intro x hx
        have := step_const h2 (σ := fun _ => 1) s1 (v := 0) (fun y _ => insulation_raw e y.1) x hx
        simp [this, hi]
    · rw [if_neg hi] at h2
      simp only [Res.ok.injEq] at h2
      subst h2
      refine ⟨?_, fun x hx => by simp [s1 x hx, hi]⟩
      rw [List.filter_eq_self.mpr]
      intro c _
      simp [Insulated, hi]
  have c12 : (l₂.map Prod.fst).Perm (d.filter fun c => decide (Alone cfg e sec q.turns c ∧ Insulated cfg e c)) := by
    refine c2.1.trans ((c1.filter _).trans ?_)
    rw [List.filter_filter]
    refine List.Perm.of_eq (List.filter_congr fun c _ => ?_)
    rw [Bool.eq_iff_iff]
    simp [and_comm]
  have m12 : ∀ c, c ∈ l₂.map Prod.fst ↔ c ∈ d ∧ Alone cfg e sec q.turns c ∧ Insulated cfg e c := by
    intro c
    rw [c12.mem_iff, List.mem_filter]
    simp
  have hsome : (∃ x ∈ l₂, Fits e sec q x.1) ↔ SomeFit cfg e sec q d := by
    unfold SomeFit
    constructor
    · rintro ⟨x, hx, hf⟩
      obtain ⟨a1, a2, a3⟩ := (m12 x.1).mp (List.mem_map_of_mem hx)
      exact ⟨x.1, a1, a2, a3, hf⟩
    · rintro ⟨c, hc, a2, a3, hf⟩
      obtain ⟨x, hx, rfl⟩ := List.mem_map.mp ((m12 c).mpr ⟨hc, a2, a3⟩)
      exact ⟨x, hx, hf⟩
  obtain ⟨hsz, _, hfit, halmost⟩ := fitting_spec hq hs h3 (σ := fun _ => (1 : K) + (if cfg.insulation then 1 else 0)) c2.2
  have c3 : (l₃.map Prod.fst).Perm (d.filter fun c => decide (Acceptable cfg e sec q d c)) := by
    by_cases hS : SomeFit cfg e sec q d
    · refine (hfit (hsome.mpr hS)).1.trans ((c12.filter _).trans ?_)
      rw [List.filter_filter]
      refine List.Perm.of_eq (List.filter_congr fun c _ => ?_)
      rw [Bool.eq_iff_iff]
      simp only [Bool.and_eq_true, decide_eq_true_eq, Acceptable, hS, true_implies, not_true_eq_false, false_implies, and_true]
      constructor
      · rintro ⟨a, b, c⟩; exact ⟨b, c, a⟩
      · rintro ⟨b, c, a⟩; exact ⟨a, b, c⟩
    · refine (halmost (fun h5 => hS (hsome.mp h5))).1.trans ((c12.filter _).trans ?_)
      rw [List.filter_filter]
      refine List.Perm.of_eq (List.filter_congr fun c _ => ?_)
      rw [Bool.eq_iff_iff]
      simp only [Bool.and_eq_true, decide_eq_true_eq, Acceptable, hS, false_implies, not_false_eq_true, true_implies, true_and]
      constructor
      · rintro ⟨a, b, c⟩; exact ⟨b, c, a⟩
      · rintro ⟨b, c, a⟩; exact ⟨a, b, c⟩
  -- the scores
  obtain ⟨τ, hτ, hshare⟩ : ∃ τ : Cand K → K, (∀ x ∈ l₃, x.2 = ((1 : K) + (if cfg.insulation then 1 else 0)) + τ x.1) ∧
      ∀ x ∈ l₃, (SomeFit cfg e sec q d → τ x.1 = 1) ∧ (¬ SomeFit cfg e sec q d →
        ∀ g : List (Cand K), g.Perm (l₃.map Prod.fst) → Share true (g.map (partOf e sec q)) (partOf e sec q x.1) (τ x.1)) := by
    by_cases hS : SomeFit cfg e sec q d
    · exact ⟨fun _ => 1, (hfit (hsome.mpr hS)).2, fun x _ => ⟨fun _ => rfl, fun h5 => absurd hS h5⟩⟩
    · obtain ⟨τ, hτ⟩ := (halmost (fun h5 => hS (hsome.mp h5))).2
      exact ⟨τ, fun x hx => (hτ x hx).1, fun x hx => ⟨fun h5 => absurd h5 hS, fun _ => (hτ x hx).2⟩⟩
  obtain ⟨f, hf, c4, res, skn, prox, hmeas, hscore⟩ := scored_spec h4 (σ := fun c => ((1 : K) + (if cfg.insulation then 1 else 0)) + τ c) hτ
  have c5 : ((breakTies l₄).map Prod.fst).Perm (l₄.map Prod.fst) := (breakTies_perm l₄).map _
  refine ⟨d, breakTies l₄, f, ⟨partOf e sec q, res, skn, prox⟩, hd, hf, hr.symm, breakTies_pairwise l₄, (c5.trans c4).trans c3, ?_, ?_⟩
  · intro x hx
    have hx4 := (breakTies_perm l₄).mem_iff.mp hx
    obtain ⟨m1, m2, m3⟩ := hmeas x hx4
    refine ⟨?_, m1, m2, m3⟩
    have h6 : x.1 ∈ l₃.map Prod.fst := c4.mem_iff.mp (List.mem_map_of_mem hx4)
    have h7 : x.1 ∈ l₂.map Prod.fst := by
      rw [m12]
      obtain ⟨a, b⟩ := List.mem_filter.mp (c3.mem_iff.mp h6)
      have b' : Acceptable cfg e sec q d x.1 := by simpa using b
      exact ⟨a, b'.1, b'.2.1⟩
    obtain ⟨y, hy, hyx⟩ := List.mem_map.mp h7
    obtain ⟨w, v, hw⟩ := hsz y hy
    rw [hyx] at hw
    exact partOf_spec hq hs hw
  · intro x hx
    have hx4 := (breakTies_perm l₄).mem_iff.mp hx
    have h6 : x.1 ∈ l₃.map Prod.fst := c4.mem_iff.mp (List.mem_map_of_mem hx4)
    obtain ⟨y, hy, hyx⟩ := List.mem_map.mp h6
    obtain ⟨t1, t2⟩ := hshare y hy
    rw [hyx] at t1 t2
    obtain ⟨r', k, p'', e1, e2, e3, e4, e5⟩ := hscore x hx4
    have conv : ∀ {u : Cand K → K} {t : K}, Share true ((l₄.map Prod.fst).map u) (u x.1) t →
        Share true (((breakTies l₄).map Prod.fst).map u) (u x.1) t := fun {u t} h7 =>
      share_congr (fun v => ((c5.map u).mem_iff).symm) h7
    refine ⟨τ x.1, r', k, p'', fun h7 => t1 (by simpa using h7), fun h7 => t2 (by simpa using h7) _ (c5.trans c4), conv e1,
      fun h7 => conv (e2 h7), e3, conv e4, ?_⟩
    rw [e5]

end Verif.WireAdvice
